import Verif.Lemmas.Scan
import Verif.Model.Pretty
/-
`ugly` and the string scanning of `pretty`, as functions of suffixes.
-/
namespace Gjson

/-- Length of the run of backslashes at the end. -/
def runBack (u : Bytes) : Nat := (u.reverse.takeWhile (· = c! '\\')).length

@[simp] theorem runBack_nil : runBack [] = 0 := rfl
theorem runBack_snoc (u : Bytes) (c : UInt8) : runBack (u ++ [c]) = if c = c! '\\' then runBack u + 1 else 0 := by
  unfold runBack
  rw [List.reverse_append, List.reverse_singleton, List.singleton_append, List.takeWhile_cons]
  split <;> simp_all

theorem runBack_le (u : Bytes) : runBack u ≤ u.length := by
  unfold runBack
  have := (List.takeWhile_sublist (l := u.reverse) (p := fun x => decide (x = c! '\\'))).length_le
  simpa using this

/-- Read to the closing quote; the flag says whether the next byte is escaped.
The first part includes the quote; an unclosed string takes everything. -/
def sEnd (e : Bool) : Bytes → Bytes × Bytes
  | [] => ([], [])
  | c :: r =>
    if c = c! '"' ∧ e = false then ([c], r)
    else (c :: (sEnd (!e && c = c! '\\') r).1, (sEnd (!e && c = c! '\\') r).2)

theorem sEnd_append : ∀ (s : Bytes) (e : Bool), (sEnd e s).1 ++ (sEnd e s).2 = s
  | [], _ => rfl
  | c :: r, e => by
    unfold sEnd
    split
    · rfl
    · simp [sEnd_append r]

theorem sEnd_le (s : Bytes) (e : Bool) : (sEnd e s).2.length ≤ s.length := by
  have := congrArg List.length (sEnd_append s e)
  simp at this; omega

theorem backslashRun_eq {src pre s : Bytes} : ∀ (n : Nat) (u : Bytes), src = pre ++ c! '"' :: (u ++ s) → u.length < n →
    backslashRun src n (pre.length + u.length) = .ok (pre.length + u.length - runBack u)
  | 0, _, _, h => by omega
  | n + 1, u, hs, hn => by
    unfold backslashRun
    rcases List.eq_nil_or_concat u with rfl | ⟨u', c, rfl⟩
    · have hA : At src pre.length (c! '"' :: s) := by rw [hs]; exact At.of_pre _ _
      simp only [List.length_nil, Nat.add_zero]
      rw [hA.idx]
      simp
    · have hA : At src (pre.length + (u' ++ [c]).length) (c :: s) := by
        have := At.of_pre (pre ++ c! '"' :: u') (c :: s)
        rw [hs]
        simpa using this
      rw [List.concat_eq_append] at *
      rw [hA.idx, runBack_snoc]
      simp only [ok_bind]
      split
      · simp
      · rename_i hc
        have hc := Decidable.not_not.1 hc
        subst hc
        rw [if_neg (by simp), if_pos rfl]
        have := backslashRun_eq (src := src) (pre := pre) n u' (s := c! '\\' :: s) (by rw [hs]; simp) (by simp at hn; omega)
        rw [show pre.length + (u' ++ [c! '\\']).length - 1 = pre.length + u'.length by simp, this]
        congr 1; simp; omega

/-- The scanning state after `u`: is the next byte escaped? -/
def escAfter (u : Bytes) : Bool := runBack u % 2 = 1

theorem escAfter_snoc (u : Bytes) (c : UInt8) : escAfter (u ++ [c]) = (!escAfter u && c = c! '\\') := by
  unfold escAfter
  rw [runBack_snoc]
  split <;> rename_i h
  · rcases Nat.mod_two_eq_zero_or_one (runBack u) with h2 | h2 <;>
      simp [h, h2, Nat.add_mod]
  · simp [h]

theorem uglyString_eq {src pre : Bytes} : ∀ (s : Bytes) (n : Nat) (u dst : Bytes),
    src = pre ++ c! '"' :: (u ++ s) → s.length < n →
    ∃ j, uglyString src n (pre.length + 1 + u.length) dst = .ok (j, dst ++ (sEnd (escAfter u) s).1) ∧
      ((sEnd (escAfter u) s).2 = [] ∧ j = src.length ∨ At src (j + 1) (sEnd (escAfter u) s).2)
  | s, 0, _, _, _, h => by omega
  | [], n + 1, u, dst, hs, _ => by
    refine ⟨src.length, ?_, .inl ⟨rfl, rfl⟩⟩
    have : src.length = pre.length + 1 + u.length := by rw [hs]; simp; omega
    unfold uglyString
    rw [if_neg (by omega), this]
    simp [sEnd]
  | c :: s, n + 1, u, dst, hs, hn => by
    have hA : At src (pre.length + 1 + u.length) (c :: s) := by
      have := At.of_pre (pre ++ c! '"' :: u) (c :: s)
      rw [hs]
      have h2 : (pre ++ c! '"' :: u).length = pre.length + 1 + u.length := by simp; omega
      rw [h2] at this
      simpa using this
    obtain ⟨j, hj, hrest⟩ := uglyString_eq (src := src) (pre := pre) s n (u ++ [c]) (dst ++ [c]) (by rw [hs]; simp) (by simp at hn; omega)
    have hlen : pre.length + 1 + (u ++ [c]).length = pre.length + 1 + u.length + 1 := by simp; omega
    rw [escAfter_snoc, hlen] at hj
    rw [escAfter_snoc] at hrest
    unfold uglyString
    rw [if_pos hA.lt, hA.idx]
    simp only [ok_bind]
    have hb := runBack_le u
    by_cases hc : c = c! '"'
    · rw [if_pos hc, if_neg (by omega)]
      rw [show pre.length + 1 + u.length - 1 = pre.length + u.length by omega,
        backslashRun_eq _ u hs (by rw [hs]; simp; omega)]
      simp only [ok_bind]
      by_cases he : escAfter u = false
      · have hodd : (pre.length + 1 + u.length - (pre.length + u.length - runBack u)) % 2 ≠ 0 := by
          unfold escAfter at he; simp at he; omega
        rw [if_pos hodd]
        refine ⟨pre.length + 1 + u.length, by simp only [sEnd, hc, he]; simp, .inr ?_⟩
        simp only [sEnd, hc, he]; simpa using hA.cons
      · have hodd : ¬ (pre.length + 1 + u.length - (pre.length + u.length - runBack u)) % 2 ≠ 0 := by
          unfold escAfter at he; simp at he; omega
        rw [if_neg hodd, hj]
        have : ¬ (c = c! '"' ∧ escAfter u = false) := fun h => he h.2
        simp only [sEnd, if_neg this]
        exact ⟨j, by simp, hrest⟩
    · rw [if_neg hc, hj]
      have : ¬ (c = c! '"' ∧ escAfter u = false) := fun h => hc h.1
      simp only [sEnd, if_neg this]
      exact ⟨j, by simp, hrest⟩

/-- `ugly` on a suffix. -/
def pUgly : Bytes → Bytes
  | [] => []
  | c :: r =>
    if c ≤ c! ' ' then pUgly r
    else if c = c! '"' then c :: ((sEnd false r).1 ++ pUgly (sEnd false r).2)
    else c :: pUgly r
termination_by s => s.length
decreasing_by all_goals (have := sEnd_le r false; simp; try omega)

theorem pUgly_nil : pUgly [] = [] := by rw [pUgly.eq_def]
theorem pUgly_skip {c : UInt8} (h : c ≤ c! ' ') (r : Bytes) : pUgly (c :: r) = pUgly r := by
  rw [pUgly.eq_def]; simp only; rw [if_pos h]
theorem pUgly_quote (r : Bytes) : pUgly (c! '"' :: r) = c! '"' :: ((sEnd false r).1 ++ pUgly (sEnd false r).2) := by
  rw [pUgly.eq_def]; simp only; rw [if_neg (by decide), if_pos trivial]
theorem pUgly_keep {c : UInt8} (h : ¬ c ≤ c! ' ') (hq : c ≠ c! '"') (r : Bytes) : pUgly (c :: r) = c :: pUgly r := by
  rw [pUgly.eq_def]; simp only; rw [if_neg h, if_neg hq]

theorem uglyLoop_eq {src : Bytes} : ∀ (n i : Nat) (s dst : Bytes), At src i s → s.length < n →
    uglyLoop src n i dst = .ok (dst ++ pUgly s)
  | 0, _, _, _, _, h => by omega
  | n + 1, i, [], dst, h, _ => by
    unfold uglyLoop
    rw [if_neg (by have := h.nil; omega), pUgly_nil, List.append_nil]
  | n + 1, i, c :: r, dst, h, hn => by
    have hn' : r.length < n := by simp at hn; omega
    unfold uglyLoop
    rw [if_pos h.lt, h.idx]
    simp only [ok_bind]
    by_cases hc : c ≤ c! ' '
    · rw [if_neg (by simpa using hc), pUgly_skip hc]
      exact uglyLoop_eq n (i + 1) r dst h.cons hn'
    · rw [if_pos (by simpa using hc)]
      by_cases hq : c = c! '"'
      · subst hq
        rw [if_pos rfl]
        obtain ⟨pre, hpre, hlen⟩ := h.pre
        obtain ⟨j, hj, hrest⟩ := uglyString_eq (src := src) (pre := pre) r (src.length + 1) [] (dst ++ [c! '"']) (by simpa using hpre)
          (by have := h.len; simp at this; omega)
        rw [show pre.length + 1 + ([] : Bytes).length = i + 1 by simp; omega] at hj
        rw [hj]
        simp only [ok_bind]
        rw [pUgly_quote]
        have he : escAfter [] = false := rfl
        rw [he] at hrest ⊢
        rcases hrest with ⟨h1, h2⟩ | h1
        · rw [h1, h2, pUgly_nil]
          cases n with
          | zero => simp at hn'
          | succ n =>
            unfold uglyLoop
            rw [if_neg (by omega)]; simp
        · rw [uglyLoop_eq n (j + 1) _ _ h1 (by have := sEnd_le r false; omega)]
          simp
      · rw [if_neg hq, pUgly_keep hc hq, uglyLoop_eq n (i + 1) r _ h.cons hn']
        simp

theorem ugly_eq (json : Bytes) : ugly json = .ok (pUgly json) := by
  unfold ugly
  rw [uglyLoop_eq _ 0 json [] (At.zero _) (by omega)]; rfl

/-! ### Strings in `pretty` -/

theorem prettyBackslashes_eq {json pre s : Bytes} : ∀ (n : Nat) (u : Bytes) (sc : Nat),
    json = pre ++ c! '"' :: (u ++ s) → u.length < n →
    prettyBackslashes json pre.length n (pre.length + u.length) sc = .ok (sc + runBack u)
  | 0, _, _, _, h => by omega
  | n + 1, u, sc, hs, hn => by
    unfold prettyBackslashes
    rcases List.eq_nil_or_concat u with rfl | ⟨u', c, rfl⟩
    · simp
    · rw [List.concat_eq_append] at *
      have hA : At json (pre.length + (u' ++ [c]).length) (c :: s) := by
        have := At.of_pre (pre ++ c! '"' :: u') (c :: s)
        rw [hs]
        simpa using this
      rw [hA.idx, runBack_snoc, if_pos (by simp)]
      simp only [ok_bind]
      split
      · rename_i hc
        subst hc
        have := prettyBackslashes_eq (json := json) (pre := pre) n u' (s := c! '\\' :: s) (sc + 1) (by rw [hs]; simp) (by simp at hn; omega)
        rw [show pre.length + (u' ++ [c! '\\']).length - 1 = pre.length + u'.length by simp, this]
        congr 1; omega
      · simp

theorem prettyStringEnd_eq {json pre : Bytes} : ∀ (s : Bytes) (n : Nat) (u : Bytes),
    json = pre ++ c! '"' :: (u ++ s) → s.length < n →
    prettyStringEnd json pre.length n (pre.length + 1 + u.length) =
      .ok (pre.length + 1 + u.length + (sEnd (escAfter u) s).1.length)
  | s, 0, _, _, h => by omega
  | [], n + 1, u, hs, _ => by
    have : json.length = pre.length + 1 + u.length := by rw [hs]; simp; omega
    unfold prettyStringEnd
    rw [if_neg (by omega)]
    simp [sEnd]
  | c :: s, n + 1, u, hs, hn => by
    have hA : At json (pre.length + 1 + u.length) (c :: s) := by
      have := At.of_pre (pre ++ c! '"' :: u) (c :: s)
      rw [hs]
      have h2 : (pre ++ c! '"' :: u).length = pre.length + 1 + u.length := by simp; omega
      rw [h2] at this
      simpa using this
    have hj := prettyStringEnd_eq (json := json) (pre := pre) s n (u ++ [c]) (by rw [hs]; simp) (by simp at hn; omega)
    have hlen : pre.length + 1 + (u ++ [c]).length = pre.length + 1 + u.length + 1 := by simp; omega
    rw [escAfter_snoc, hlen] at hj
    unfold prettyStringEnd
    rw [if_pos hA.lt, hA.idx]
    simp only [ok_bind]
    by_cases hc : c = c! '"'
    · rw [if_pos hc, if_neg (by omega)]
      rw [show pre.length + 1 + u.length - 1 = pre.length + u.length by omega,
        prettyBackslashes_eq _ u 0 hs (by rw [hs]; simp; omega)]
      simp only [ok_bind, Nat.zero_add]
      by_cases he : escAfter u = false
      · rw [if_neg (by unfold escAfter at he; simp at he; omega)]
        simp only [sEnd, hc, he]; simp
      · rw [if_pos (by unfold escAfter at he; simpa using he), hj]
        have : ¬ (c = c! '"' ∧ escAfter u = false) := fun h => he h.2
        simp only [sEnd, if_neg this, List.length_cons]
        congr 1; omega
    · rw [if_neg hc, hj]
      have : ¬ (c = c! '"' ∧ escAfter u = false) := fun h => hc h.1
      simp only [sEnd, if_neg this, List.length_cons]
      congr 1; omega

theorem prettyString_eq {json : Bytes} {i : Nat} {r : Bytes} (buf : Bytes) (nl : Int) (h : At json i (c! '"' :: r)) :
    prettyString buf json i nl =
      .ok (buf ++ c! '"' :: (sEnd false r).1, i + 1 + (sEnd false r).1.length, nl, true) := by
  obtain ⟨pre, hpre, rfl⟩ := h.pre
  have := prettyStringEnd_eq (json := json) (pre := pre) r (json.length + 1) [] (by simpa using hpre)
    (by have := h.len; simp at this; omega)
  unfold prettyString
  simp only [List.length_nil, Nat.add_zero] at this
  rw [this]
  simp only [ok_bind]
  have he : escAfter [] = false := rfl
  rw [he]
  have hA : At json pre.length ((c! '"' :: (sEnd false r).1) ++ (sEnd false r).2) := by
    rw [List.cons_append, sEnd_append]; exact h
  rw [hA.slice' (by simp; omega)]
  rfl

end Gjson
