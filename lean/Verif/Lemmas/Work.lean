import Verif.Model.Work
import Verif.SpecWork
import Verif.Lemmas.Stable
import Verif.Lemmas.Miss
import Verif.Lemmas.Mod
import Verif.Lemmas.Tokens
import Verif.Lemmas.UglyDoc
/-
Counting the calls of `get_obj` and `get_arr`.
-/
namespace Gjson
open Spec

/-! ### The results are those of the model without counting -/

/-- The result without the number. -/
def uncounted {α : Type} (x : Res (α × Nat)) : Res α := do .ok (← x).1

theorem uncounted_eq_ok {α : Type} {x : Res (α × Nat)} {a : α} : uncounted x = .ok a ↔ ∃ k, x = .ok (a, k) := by
  cases x with
  | error e => simp [uncounted]
  | ok x => obtain ⟨b, k⟩ := x; simp [uncounted]

/-- `proc_value` calls `dive` exactly for a container at a match with a dot in the path. -/
theorem procValue_dives {dive : Nat → Path → Res (Option Found)} {json : Bytes} {i : Nat} {path : Path} {c : UInt8}
    (hi : idx json i = .ok c) (hc : c = c! '{' ∨ c = c! '[') (hs : path.sep = c! '.') {r : Found}
    (h : procValue dive json i path true = .ok r) : ∃ x, dive i path = .ok x := by
  unfold procValue at h
  rw [hi] at h
  simp only [ok_bind] at h
  have hne : c ≠ c! '"' := by rcases hc with h | h <;> rw [h] <;> decide
  rw [if_neg hne, if_pos hc, if_pos trivial, if_pos hs] at h
  obtain ⟨x, hx, _⟩ := bind_eq_ok.1 h
  exact ⟨x, hx⟩

/-- In all other cases it makes no difference. -/
theorem procValue_other {dive dive' : Nat → Path → Res (Option Found)} {json : Bytes} {i : Nat} {path : Path} {m : Bool}
    (h : ∀ c, idx json i = .ok c → m = true → (c = c! '{' ∨ c = c! '[') → path.sep ≠ c! '.') :
    procValue dive json i path m = procValue dive' json i path m := by
  unfold procValue
  cases hi : idx json i with
  | error e => rfl
  | ok c =>
    simp only [ok_bind]
    split
    · rfl
    · split
      · split
        · rename_i h1 h2 h3
          rw [if_neg (h c hi h3 h2), if_neg (h c hi h3 h2)]
        · rfl
      · rfl

theorem procCount_result (dive : Nat → Path → Res (Option Found × Nat)) (json : Bytes) (i : Nat) (path : Path) (m : Bool) :
    uncounted (procCount dive json i path m) = procValue (fun i path => uncounted (dive i path)) json i path m := by
  unfold procCount
  show uncounted (procValue (fun i path => uncounted (dive i path)) json i path m >>= _) = _
  cases h : procValue (fun i path => uncounted (dive i path)) json i path m with
  | error e => rfl
  | ok r =>
    simp only [ok_bind]
    have : ∃ c, idx json i = .ok c := by
      unfold procValue at h
      obtain ⟨c, hc, _⟩ := bind_eq_ok.1 h
      exact ⟨c, hc⟩
    obtain ⟨c, hc⟩ := this
    rw [hc]
    simp only [ok_bind]
    split
    · rename_i hd
      rw [hd.1] at h
      obtain ⟨x, hx⟩ := procValue_dives hc hd.2.1 hd.2.2 h
      obtain ⟨k, hk⟩ := uncounted_eq_ok.1 hx
      rw [hk]; rfl
    · rfl

theorem objCountLoop_result (dive : Nat → Path → Res (Option Found × Nat)) (json : Bytes) (path : Path) : ∀ n i,
    uncounted (objCountLoop dive json path n i) = getObjLoop (fun i path => uncounted (dive i path)) json path n i
  | 0, _ => rfl
  | n + 1, i => by
    unfold objCountLoop getObjLoop
    split
    · cases idx json i with
      | error e => rfl
      | ok c =>
        simp only [ok_bind]
        split; · rfl
        split; · exact objCountLoop_result dive json path n (i + 1)
        cases scanString json i with
        | error e => rfl
        | ok x =>
          simp only [ok_bind]
          cases skipColon json (json.length + 1) x.2.2 with
          | error e => rfl
          | ok j =>
            simp only [ok_bind]
            split; · rfl
            cases keyMatch x.1 x.2.1 path with
            | error e => rfl
            | ok m =>
              simp only [ok_bind]
              rw [← procCount_result]
              cases procCount dive json j path m with
              | error e => rfl
              | ok y =>
                obtain ⟨⟨res, k, p⟩, t⟩ := y
                simp only [uncounted, ok_bind]
                split; · rfl
                refine Eq.trans ?_ (objCountLoop_result dive json path n k)
                cases objCountLoop dive json path n k <;> rfl
    · rfl

/-- The results of `objCount` are those of `getObj`. -/
theorem objCount_result (rec : GetFn) (json : Bytes) : ∀ d i path, uncounted (objCount rec json d i path) = getObj rec json d i path
  | 0, _, _ => rfl
  | d + 1, i, path => by
    unfold objCount getObj
    simp only
    split; · rfl
    cases idx json i with
    | error e => rfl
    | ok c =>
      simp only [ok_bind]
      split; · rfl
      rw [show ∀ (x : Res (Found × Nat)), uncounted (x >>= fun y => (.ok (y.1, y.2 + 1) : Res (Found × Nat))) = uncounted x from
        fun x => by cases x <;> rfl]
      rw [objCountLoop_result]
      congr 1
      funext i path
      cases pathNext path.extra with
      | error e => rfl
      | ok next =>
        simp only [ok_bind]
        split
        · cases idx json i with
          | error e => rfl
          | ok c =>
            simp only [ok_bind]
            split
            · rw [← objCount_result rec json d]
              cases objCount rec json d i next <;> rfl
            · cases getArr rec json i false next <;> rfl
        · rfl

/-! ### Upper bounds -/

theorem choices_pos : ∀ m k, 1 ≤ choices m k
  | 0, _ => by simp [choices]
  | _ + 1, 0 => by simp [choices]
  | m + 1, k + 1 => by rw [choices]; have := choices_pos m k; omega

theorem choices_zero : ∀ m, choices m 0 = 1
  | 0 => rfl
  | _ + 1 => rfl

theorem choices_succ_left : ∀ m k, choices m k ≤ choices (m + 1) k
  | _, 0 => by simp [choices_zero]
  | m, k + 1 => by rw [choices.eq_3]; omega

theorem choices_mono_left {m m' : Nat} (k : Nat) (h : m ≤ m') : choices m k ≤ choices m' k := by
  induction h with
  | refl => exact Nat.le_refl _
  | step _ ih => exact Nat.le_trans ih (choices_succ_left _ _)

theorem choices_succ_right : ∀ m k, choices m k ≤ choices m (k + 1)
  | 0, _ => by simp [choices]
  | m + 1, 0 => by rw [choices_zero]; exact choices_pos _ _
  | m + 1, k + 1 => by
    rw [choices, choices]
    exact Nat.add_le_add (choices_succ_right m k) (choices_succ_right m (k + 1))

theorem choices_mono_right (m : Nat) {k k' : Nat} (h : k ≤ k') : choices m k ≤ choices m k' := by
  induction h with
  | refl => exact Nat.le_refl _
  | step _ ih => exact Nat.le_trans ih (choices_succ_right _ _)

theorem choices_mono {m m' k k' : Nat} (h : m ≤ m') (h' : k ≤ k') : choices m k ≤ choices m' k' :=
  Nat.le_trans (choices_mono_left k h) (choices_mono_right m' h')

/-- At most as many as there are sets. -/
theorem choices_le_pow : ∀ m k, choices m k ≤ 2 ^ m
  | 0, _ => by simp [choices]
  | m + 1, 0 => by simp [choices]; exact Nat.one_le_two_pow
  | m + 1, k + 1 => by
    rw [choices, Nat.pow_succ]
    have h1 := choices_le_pow m k
    have h2 := choices_le_pow m (k + 1)
    omega

/-- All of them when there are enough. -/
theorem choices_full : ∀ m k, m ≤ k → choices m k = 2 ^ m
  | 0, _, _ => by simp [choices]
  | m + 1, 0, h => by omega
  | m + 1, k + 1, h => by
    rw [choices, choices_full m k (by omega), choices_full m (k + 1) (by omega), Nat.pow_succ]; omega

/-- For a fixed number of choices a polynomial. -/
theorem choices_le_poly : ∀ m k, choices m k ≤ (m + 1) ^ k
  | 0, k => by simp [choices]
  | m + 1, 0 => by simp [choices]
  | m + 1, k + 1 => by
    rw [choices]
    have h1 := choices_le_poly m k
    have h2 := choices_le_poly m (k + 1)
    have h3 : (m + 1) ^ k ≤ (m + 2) ^ k := Nat.pow_le_pow_left (by omega) k
    have h4 : (m + 1) ^ (k + 1) = (m + 1) ^ k * (m + 1) := Nat.pow_succ ..
    have h5 : (m + 1 + 1) ^ (k + 1) = (m + 2) ^ k * (m + 2) := Nat.pow_succ ..
    have h6 : (m + 1) ^ k * (m + 1) ≤ (m + 2) ^ k * (m + 1) := Nat.mul_le_mul_right _ h3
    have h7 : (m + 2) ^ k * (m + 2) = (m + 2) ^ k * (m + 1) + (m + 2) ^ k := by rw [show m + 2 = (m + 1) + 1 from rfl, Nat.mul_add, Nat.mul_one]
    omega

theorem opens_cons (c : UInt8) (r : Bytes) : opens (c :: r) = opens r + if c = c! '[' ∨ c = c! '{' then 1 else 0 := by
  unfold opens
  rw [List.countP_cons]
  simp

theorem opens_suffix {s t : Bytes} (h : s <:+ t) : opens s ≤ opens t := List.Sublist.countP_le h.sublist

/-- The containers ahead, not counting one that starts here. -/
def ahead : Bytes → Nat
  | [] => 0
  | c :: r => if c = c! '[' ∨ c = c! '{' then opens r else opens (c :: r)

theorem ahead_cons (c : UInt8) (r : Bytes) : ahead (c :: r) = if c = c! '[' ∨ c = c! '{' then opens r else opens (c :: r) := rfl

theorem ahead_le (s : Bytes) : ahead s ≤ opens s := by
  cases s with
  | nil => simp [ahead, opens]
  | cons c r =>
    rw [ahead_cons]
    split
    · rw [opens_cons]; omega
    · exact Nat.le_refl _

/-- How often the path can still dive. -/
def divesLeft (p : Path) : Nat := if p.sep = c! '.' then dots p.extra + 1 else 0

theorem divesLeft_next (t : Bytes) : divesLeft (pNext t) ≤ dots t := by
  unfold divesLeft
  split
  · rename_i h
    have := ((pNext_ok t).sep (by rw [h]; decide)).2
    conv => rhs; rw [this]
    unfold dots
    rw [List.countP_append, List.countP_cons, h]
    simp
  · omega

theorem leafTok_after {c : UInt8} {r : Bytes} : (leafTok (c :: r)).2 <:+ r := by
  have h1 := leafTok_suffix (s := c :: r) (by simp)
  have h2 := leafTok_lt (s := c :: r) (by simp)
  exact List.suffix_of_suffix_length_le h1 (List.suffix_cons c r) (by simpa [Nat.lt_succ_iff] using h2)

theorem At.suffix {json : Bytes} {i : Nat} {s : Bytes} (h : At json i s) : s <:+ json := by
  obtain ⟨_, h⟩ := h
  rw [← h]; exact List.drop_suffix _ _

/-- What a dive costs. -/
def DiveCost (json : Bytes) (path : Path) (dive : Nat → Path → Res (Option Found × Nat)) : Prop :=
  path.sep = c! '.' → ∀ i c r, At json i (c :: r) → (c = c! '{' ∨ c = c! '[') → ∀ x, dive i path = .ok x → x.2 ≤ choices (opens r) (dots path.extra)

theorem objCountLoop_bound {json : Bytes} {path : Path} {dive : Nat → Path → Res (Option Found × Nat)} (hd : DiveCost json path dive) :
    ∀ (n i : Nat) (s : Bytes) (x : Found × Nat), At json i s → objCountLoop dive json path n i = .ok x →
      x.2 + 1 ≤ choices (ahead s) (divesLeft path)
  | 0, _, _, _, _, h => by simp [objCountLoop, outOfFuel] at h
  | n + 1, i, [], x, hat, h => by
    unfold objCountLoop at h
    rw [if_neg (by have := hat.nil; omega)] at h
    cases h; exact choices_pos _ _
  | n + 1, i, c :: r, x, hat, h => by
    unfold objCountLoop at h
    rw [if_pos hat.lt, hat.idx] at h
    simp only [ok_bind] at h
    split at h
    · cases h; exact choices_pos _ _
    split at h
    · refine Nat.le_trans (objCountLoop_bound hd n (i + 1) r x hat.cons h) (choices_mono_left _ ?_)
      have := ahead_le r
      rw [ahead_cons]
      split
      · exact this
      · rw [opens_cons]; omega
    rename_i hq
    have hq : c = c! '"' := by simpa using hq
    have hah : ahead (c :: r) = opens r := by
      rw [hq, ahead_cons, if_neg (by decide), opens_cons]; simp
    rw [hah]
    have hs := scanString_at hat
    cases hq2 : qStr r with
    | none =>
      rw [hq2] at hs; simp only at hs
      rw [hs] at h
      simp only [ok_bind] at h
      have : skipColon json (json.length + 1) json.length = .ok json.length := by
        unfold skipColon; rw [if_neg (by omega)]
      rw [this] at h
      simp only [ok_bind, if_true] at h
      cases h; exact choices_pos _ _
    | some y =>
      obtain ⟨b, f, q⟩ := y
      rw [hq2] at hs; simp only at hs
      rw [hs.1] at h
      simp only [ok_bind] at h
      have hlen := hs.2.len
      obtain ⟨j, hj, hj2⟩ := skipColon_at (json.length + 1) _ q hs.2 (by omega)
      rw [hj] at h
      simp only [ok_bind] at h
      cases hv : pSkipColon q with
      | nil =>
        rw [hv] at hj2
        rw [if_pos hj2.nil] at h
        cases h; exact choices_pos _ _
      | cons c2 r2 =>
        rw [hv] at hj2
        rw [if_neg hj2.ne] at h
        have hsuf : (c2 :: r2) <:+ r := by
          refine List.suffix_of_suffix_length_le hj2.suffix hat.cons.suffix ?_
          have h1 := pSkipColon_le q
          have h2 := qStr_lt hq2
          rw [hv] at h1
          omega
        have hop := opens_suffix hsuf
        obtain ⟨m, _, h⟩ := bind_eq_ok.1 h
        obtain ⟨⟨⟨res, k, p⟩, t⟩, hp, h⟩ := bind_eq_ok.1 h
        simp only at h
        -- where the loop goes on and what the value cost
        have key : (t = 0 ∧ ∃ s', At json k s' ∧ s' <:+ r2) ∨
            ((c2 = c! '{' ∨ c2 = c! '[') ∧ path.sep = c! '.' ∧ t ≤ choices (opens r2) (dots path.extra) ∧
              (res.exists = true ∨ ∃ s', At json k s' ∧ (s' = c2 :: r2 ∨ s' <:+ r2))) := by
          unfold procCount at hp
          obtain ⟨r', hr', hp⟩ := bind_eq_ok.1 hp
          rw [hj2.idx] at hp
          simp only [ok_bind] at hp
          by_cases hcond : m = true ∧ (c2 = c! '{' ∨ c2 = c! '[') ∧ path.sep = c! '.'
          · rw [if_pos hcond] at hp
            obtain ⟨x', hx', hp⟩ := bind_eq_ok.1 hp
            cases hp
            right
            refine ⟨hcond.2.1, hcond.2.2, hd hcond.2.2 j c2 r2 hj2 hcond.2.1 x' hx', ?_⟩
            rw [hcond.1] at hr'
            cases hx1 : x'.1 with
            | none =>
              obtain ⟨j2, h3, h4⟩ := procValue_match (fun i path => do .ok (← dive i path).1) path hj2
                (.inr (.inr (by simp [hx', hx1])))
              rw [h3] at hr'
              cases hr'
              exact .inr ⟨_, h4, .inr leafTok_after⟩
            | some y =>
              obtain ⟨v, j2, p2⟩ := y
              have hne : c2 ≠ c! '"' := by rcases hcond.2.1 with h | h <;> rw [h] <;> decide
              unfold procValue at hr'
              rw [hj2.idx] at hr'
              simp only [ok_bind] at hr'
              rw [if_neg hne, if_pos hcond.2.1, if_pos trivial, if_pos hcond.2.2, hx'] at hr'
              simp only [ok_bind, hx1] at hr'
              split at hr'
              · rename_i he; cases hr'; exact .inl he
              · cases hr'; exact .inr ⟨_, hj2, .inl rfl⟩
          · rw [if_neg hcond] at hp
            cases hp
            left
            refine ⟨rfl, ?_⟩
            cases m with
            | false =>
              obtain ⟨j2, p2, h3, h4⟩ := procValue_skip (fun i path => do .ok (← dive i path).1) path hj2
              rw [h3] at hr'
              cases hr'
              exact ⟨_, h4, leafTok_after⟩
            | true =>
              have hnd : NoDive (fun i path => do .ok (← dive i path).1) j path c2 := by
                by_cases hc : c2 = c! '{' ∨ c2 = c! '['
                · exact .inl fun hs => hcond ⟨rfl, hc, hs⟩
                · exact .inr (.inl hc)
              obtain ⟨j2, h3, h4⟩ := procValue_match _ path hj2 hnd
              rw [h3] at hr'
              cases hr'
              exact ⟨_, h4, leafTok_after⟩
        rcases key with ⟨rfl, s', hk, hs'⟩ | ⟨hc2, hsep, ht, hk⟩
        · split at h
          · cases h; exact choices_pos _ _
          · obtain ⟨y, hy, h⟩ := bind_eq_ok.1 h
            cases h
            have := objCountLoop_bound hd n k s' y hk hy
            simp only [Nat.zero_add]
            refine Nat.le_trans this (choices_mono_left _ ?_)
            have h1 := ahead_le s'
            have h2 := opens_suffix hs'
            have h3 := opens_suffix (List.suffix_cons c2 r2)
            omega
        · have hdl : divesLeft path = dots path.extra + 1 := by unfold divesLeft; rw [if_pos hsep]
          have hop2 : opens (c2 :: r2) = opens r2 + 1 := by
            rw [opens_cons, if_pos hc2.symm]
          have hfin : choices (opens r2) (dots path.extra) + choices (opens r2) (dots path.extra + 1) ≤ choices (opens r) (divesLeft path) := by
            rw [hdl, ← choices.eq_3]
            exact choices_mono_left (m := opens r2 + 1) _ (by omega)
          split at h
          · cases h
            have := choices_pos (opens r2) (dots path.extra + 1)
            simp only
            omega
          · rename_i hne
            obtain ⟨y, hy, h⟩ := bind_eq_ok.1 h
            cases h
            rcases hk with hk | ⟨s', hk, hs'⟩
            · exact absurd hk hne
            have := objCountLoop_bound hd n k s' y hk hy
            rw [hdl] at this
            have hs2 : ahead s' ≤ opens r2 := by
              rcases hs' with rfl | hs'
              · rw [ahead_cons, if_pos hc2.symm]; exact Nat.le_refl _
              · exact Nat.le_trans (ahead_le s') (opens_suffix hs')
            have h5 := choices_mono_left (dots path.extra + 1) hs2
            simp only
            omega

theorem objCount_bound (rec : GetFn) {json : Bytes} : ∀ (d i : Nat) (path : Path) (c : UInt8) (r : Bytes) (x : Found × Nat),
    At json i (c :: r) → objCount rec json d i path = .ok x → x.2 ≤ choices (opens r) (divesLeft path)
  | 0, _, _, _, _, _, _, h => by simp [objCount, outOfFuel] at h
  | d + 1, i, path, c, r, x, hat, h => by
    unfold objCount at h
    simp only at h
    rw [if_neg hat.ne, hat.idx] at h
    simp only [ok_bind] at h
    split at h
    · cases h; exact choices_pos _ _
    obtain ⟨y, hy, h⟩ := bind_eq_ok.1 h
    cases h
    simp only
    refine Nat.le_trans (objCountLoop_bound ?_ _ _ r y hat.cons hy) (choices_mono_left _ (ahead_le r))
    intro hsep i2 c2 r2 hat2 hc2 x2 hx2
    simp only [pathNext_eq, ok_bind] at hx2
    split at hx2
    · rw [hat2.idx] at hx2
      simp only [ok_bind] at hx2
      split at hx2
      · obtain ⟨z, hz, hx2⟩ := bind_eq_ok.1 hx2
        cases hx2
        exact Nat.le_trans (objCount_bound rec d i2 _ c2 r2 z hat2 hz) (choices_mono_right _ (divesLeft_next _))
      · obtain ⟨z, hz, hx2⟩ := bind_eq_ok.1 hx2
        cases hx2
        exact choices_pos _ _
    · cases hx2; exact Nat.zero_le _

theorem startCount_bound {json : Bytes} {path : Path} : ∀ (n i : Nat) (s : Bytes) (k : Nat), At json i s → startCount json path n i = .ok k →
    k ≤ choices (opens s - 1) (divesLeft path)
  | 0, _, _, _, _, h => by simp [startCount, outOfFuel] at h
  | n + 1, i, [], k, hat, h => by
    unfold startCount at h
    rw [if_pos hat.nil] at h
    cases h; exact Nat.zero_le _
  | n + 1, i, c :: r, k, hat, h => by
    unfold startCount at h
    rw [if_neg hat.ne, hat.idx] at h
    simp only [ok_bind] at h
    split at h
    · refine Nat.le_trans (startCount_bound n (i + 1) r k hat.cons h) (choices_mono_left _ ?_)
      have := opens_suffix (List.suffix_cons c r)
      omega
    split at h
    · obtain ⟨x, hx, h⟩ := bind_eq_ok.1 h
      cases h
      refine Nat.le_trans (objCount_bound _ _ _ _ c r x hat hx) (choices_mono_left _ ?_)
      rename_i hc
      rw [opens_cons, if_pos (.inr hc)]
      omega
    split at h
    · cases h; exact choices_pos _ _
    · cases h; exact Nat.zero_le _

/-- Counting comes to an end. -/
theorem startCount_total {json : Bytes} {path : Path} : ∀ (n i : Nat) (s : Bytes), At json i s → s.length < n →
    (∃ x, getStart get json path n i = .ok x) → ∃ k, startCount json path n i = .ok k
  | 0, _, _, _, h, _ => by omega
  | n + 1, i, [], hat, _, _ => by
    unfold startCount
    rw [if_pos hat.nil]
    exact ⟨_, rfl⟩
  | n + 1, i, c :: r, hat, hl, hx => by
    unfold startCount
    unfold getStart at hx
    rw [if_neg hat.ne, hat.idx] at hx ⊢
    simp only [ok_bind] at hx ⊢
    split
    · rename_i hc
      rw [if_pos hc] at hx
      exact startCount_total n (i + 1) r hat.cons (by simp at hl; omega) hx
    rename_i hc
    rw [if_neg hc] at hx
    split
    · rename_i hc2
      rw [if_pos hc2, ← objCount_result] at hx
      obtain ⟨x, hx⟩ := hx
      obtain ⟨y, hy, _⟩ := bind_eq_ok.1 hx
      obtain ⟨k, hk⟩ := uncounted_eq_ok.1 hy
      exact ⟨k, by rw [hk]; rfl⟩
    split
    · exact ⟨_, rfl⟩
    · exact ⟨_, rfl⟩

/-! ### A worst case -/

theorem nest_denotes : ∀ m, ∃ d, Denotes (nest m) d
  | 0 => ⟨_, .objEmpty (w := []) ws_nil⟩
  | m + 1 => by
    obtain ⟨d, hd⟩ := nest_denotes m
    have := Denotes.obj (ms := [(⟨[], b!"\"a\"", [], [], nest m, []⟩, d)]) (by simp)
      (by simp [Member.Wf, Ws]; exact ⟨b!"a", .plain (by decide) (by decide) (by decide) .nil, rfl⟩) (by simpa using hd)
    exact ⟨_, by simpa [membersText, Member.text, nest] using this⟩

/-- What follows the brace of `nest m`. -/
def nestBody : Nat → Bytes
  | 0 => b!"}"
  | m + 1 => c! '"' :: (b!"a\":" ++ (nest m ++ b!"}"))

theorem nest_eq : ∀ m, nest m = c! '{' :: nestBody m
  | 0 => rfl
  | m + 1 => by simp [nest, nestBody]

/-- The parts of `chain k`. -/
def chainPath : Nat → Path
  | 0 => plainPath b!"b" 0 []
  | k + 1 => plainPath b!"a" c! '.' (chain k)

theorem pNext_chain : ∀ k, pNext (chain k) = chainPath k
  | 0 => by
    have := pNext_plain (k := b!"b") (by decide) (t := []) (sep := 0) (rest := []) ⟨rfl, rfl⟩
    simpa [chain, chainPath] using this
  | k + 1 => pNext_plain (k := b!"a") (by decide) (t := c! '.' :: chain k) ⟨.inl rfl, rfl, rfl⟩

theorem chainPath_mod : ∀ k, (chainPath k).isModifier = false ∧ (chainPath k).isMultipath = false
  | 0 => by decide
  | _ + 1 => ⟨rfl, rfl⟩

/-- A dive finds nothing in `nest m` and takes that many calls. -/
def NestDive (json : Bytes) (dive : Nat → Path → Res (Option Found × Nat)) (k : Nat) : Prop :=
  ∀ m i t, At json i (nest m ++ t) → ∃ j p, dive i (chainPath (k + 1)) = .ok (some (Value.default, j, p), choices m k)

theorem objCountLoop_nest {json : Bytes} {dive : Nat → Path → Res (Option Found × Nat)} {k : Nat}
    (hd : ∀ k', k = k' + 1 → NestDive json dive k') : ∀ (m n i : Nat) (t : Bytes), At json i (nestBody m ++ t) →
      (nestBody m ++ t).length < n →
      ∃ j, objCountLoop dive json (chainPath k) n i = .ok ((Value.default, j, chainPath k), choices m k - 1)
  | m, 0, _, _, _, h => by omega
  | 0, n + 1, i, t, hat, _ => by
    unfold objCountLoop
    have hat : At json i (c! '}' :: t) := hat
    rw [if_pos hat.lt, hat.idx]
    simp only [ok_bind, if_true]
    exact ⟨i + 1, by simp [choices]⟩
  | m + 1, n + 1, i, t, hat, hn => by
    have hat : At json i (c! '"' :: (b!"a\":" ++ (nest m ++ (b!"}" ++ t)))) := by simpa [nestBody] using hat
    have hn : (b!"a\":" ++ (nest m ++ (b!"}" ++ t))).length < n := by
      simp [nestBody] at hn ⊢; omega
    unfold objCountLoop
    rw [if_pos hat.lt, hat.idx]
    simp only [ok_bind]
    rw [if_neg (by decide), if_neg (by decide)]
    have hs := scanString_at hat
    have hq : qStr (b!"a\":" ++ (nest m ++ (b!"}" ++ t))) = some (b!"a\"", false, c! ':' :: (nest m ++ (b!"}" ++ t))) := rfl
    rw [hq] at hs
    simp only at hs
    rw [hs.1]
    simp only [ok_bind]
    have hlen := hs.2.len
    obtain ⟨j, hj, hj2⟩ := skipColon_at (json.length + 1) _ _ hs.2 (by omega)
    rw [hj]
    have hsk : pSkipColon (c! ':' :: (nest m ++ (b!"}" ++ t))) = nest m ++ (b!"}" ++ t) := by
      rw [nest_eq]; rfl
    rw [hsk] at hj2
    have hj3 : At json j (c! '{' :: (nestBody m ++ (b!"}" ++ t))) := by rw [nest_eq] at hj2; exact hj2
    simp only [ok_bind]
    rw [if_neg hj3.ne, keyMatch_eq false (by decide)]
    simp only [ok_bind]
    cases k with
    | zero =>
      have hkm : pKeyMatch (keyText b!"a\"" false) (chainPath 0) = false := by decide
      rw [hkm]
      obtain ⟨j2, p2, h3, h4⟩ := procValue_skip (fun i path => do .ok (← dive i path).1) (chainPath 0) hj3
      have hpc : procCount dive json j (chainPath 0) false = .ok ((Value.default, j2, p2), 0) := by
        unfold procCount
        rw [h3, hj3.idx]
        rfl
      rw [hpc]
      simp only [ok_bind]
      rw [if_neg (by simp)]
      have h5 : (leafTok (c! '{' :: (nestBody m ++ (b!"}" ++ t)))).2 = b!"}" ++ t := by
        obtain ⟨d, hd⟩ := nest_denotes m
        have := leafTok_closed (r := b!"}" ++ t) (value_of_denotes hd) (by rw [nest_eq]; simp)
        rw [nest_eq] at this
        exact this
      rw [h5] at h4
      have h4 : At json j2 (c! '}' :: t) := h4
      cases n with
      | zero => omega
      | succ n =>
        unfold objCountLoop
        rw [if_pos h4.lt, h4.idx]
        simp only [ok_bind, if_true]
        exact ⟨j2 + 1, by simp [choices_zero]⟩
    | succ k =>
      have hkm : pKeyMatch (keyText b!"a\"" false) (chainPath (k + 1)) = true := rfl
      rw [hkm]
      obtain ⟨j2, p2, h3⟩ := hd k rfl m j _ hj2
      have hpc : procCount dive json j (chainPath (k + 1)) true = .ok ((Value.default, j, chainPath (k + 1)), choices m k) := by
        unfold procCount procValue
        rw [hj3.idx]
        simp only [ok_bind]
        rw [if_neg (by decide), if_pos (.inl trivial), if_pos trivial, if_pos (show (chainPath (k + 1)).sep = c! '.' from rfl), h3]
        simp only [ok_bind]
        rw [if_neg (by simp)]
        simp only [ok_bind]
        rw [if_pos ⟨trivial, .inl trivial, rfl⟩]
      rw [hpc]
      simp only [ok_bind]
      rw [if_neg (by simp)]
      cases n with
      | zero => omega
      | succ n =>
        conv => enter [1, j, 1]; unfold objCountLoop
        rw [if_pos hj3.lt, hj3.idx]
        simp only [ok_bind]
        rw [if_neg (by decide), if_pos (by decide)]
        obtain ⟨j4, h4⟩ := objCountLoop_nest hd m n (j + 1) (b!"}" ++ t) hj3.cons (by
          rw [nest_eq] at hn
          simp at hn ⊢; omega)
        rw [h4]
        refine ⟨j4, ?_⟩
        have := choices_pos m (k + 1)
        simp only [ok_bind]
        rw [choices]
        congr 2
        omega

theorem objCount_nest (rec : GetFn) {json : Bytes} : ∀ (d k m i : Nat) (t : Bytes), k < d → At json i (nest m ++ t) →
    ∃ j, objCount rec json d i (chainPath k) = .ok ((Value.default, j, chainPath k), choices m k)
  | 0, _, _, _, _, h, _ => by omega
  | d + 1, k, m, i, t, hk, hat => by
    have hat2 : At json i (c! '{' :: (nestBody m ++ t)) := by rw [nest_eq] at hat; exact hat
    unfold objCount
    simp only
    rw [if_neg hat2.ne, hat2.idx]
    simp only [ok_bind]
    rw [if_neg (by decide)]
    have hl := hat2.cons.len
    have key : ∀ dive, (∀ k', k = k' + 1 → NestDive json dive k') → ∃ j, (objCountLoop dive json (chainPath k) (json.length + 1) (i + 1) >>= fun x =>
        (.ok (x.1, x.2 + 1) : Res (Found × Nat))) = .ok ((Value.default, j, chainPath k), choices m k) := by
      intro dive hd
      obtain ⟨j, hj⟩ := objCountLoop_nest hd m (json.length + 1) (i + 1) t hat2.cons (by omega)
      refine ⟨j, ?_⟩
      rw [hj]
      have := choices_pos m k
      simp only [ok_bind]
      congr 2
      omega
    refine key _ ?_
    rintro k' rfl m' i' t' hat'
    have hat3 : At json i' (c! '{' :: (nestBody m' ++ t')) := by rw [nest_eq] at hat'; exact hat'
    obtain ⟨j, hj⟩ := objCount_nest rec d k' m' i' t' (by omega) hat'
    refine ⟨j, chainPath k', ?_⟩
    have : (chainPath (k' + 1)).extra = chain k' := rfl
    simp only [this, pathNext_eq, pNext_chain, ok_bind, chainPath_mod]
    rw [if_pos (by simp), hat3.idx]
    simp only [ok_bind, if_true]
    rw [hj]
    rfl

theorem chain_length : ∀ k, (chain k).length = 2 * k + 1
  | 0 => rfl
  | k + 1 => by rw [chain]; simp [chain_length k]; omega

theorem chain_room (k : Nat) : k < (chainPath k).extra.length + 2 := by
  cases k with
  | zero => omega
  | succ k =>
    show k + 1 < (chain k).length + 2
    rw [chain_length]; omega

theorem searchCalls_nest (m k : Nat) : searchCalls (nest m) (chain k) = .ok (choices m k) := by
  have hlp : linesPrefix (chain k) = (chain k, false) := by
    cases k with
    | zero => rfl
    | succ k => rfl
  unfold searchCalls Path.new
  rw [hlp]
  simp only [pathNext_eq, pNext_chain, ok_bind, chainPath_mod]
  rw [if_neg (by simp), if_neg (by simp)]
  have h0 : At (nest m) 0 (nest m ++ []) := by simpa using At.zero (nest m)
  have h1 : At (nest m) 0 (c! '{' :: nestBody m) := by rw [← nest_eq]; exact At.zero _
  unfold startCount
  rw [if_neg h1.ne, h1.idx]
  simp only [ok_bind]
  rw [if_neg (by decide), if_pos trivial]
  have hk := chain_room k
  obtain ⟨j, hj⟩ := objCount_nest get _ k m 0 [] hk h0
  rw [hj]
  rfl

theorem get_nil_chain : ∀ k, get [] (chain k) = .ok Value.default
  | 0 => by decide +kernel
  | k + 1 => by
    have hlp : linesPrefix (chain (k + 1)) = (chain (k + 1), false) := rfl
    rw [get_eq]
    unfold getBody getFirst Path.new
    rw [hlp]
    simp only [pathNext_eq, pNext_chain, ok_bind, chainPath_mod]
    unfold getStart
    simp only [Bool.false_eq_true, if_false, List.length_nil, if_true, ok_bind]
    have : (chainPath (k + 1)).more = true := rfl
    rw [this]
    simp only [Bool.not_true, Bool.false_eq_true, if_false]
    unfold getIn
    have h1 : Value.default.owned = [] := rfl
    have h2 : (chainPath (k + 1)).extra = chain k := rfl
    simp only
    rw [if_neg (by decide), h1, h2, get_nil_chain k]
    rfl

theorem get_nest (m k : Nat) : get (nest m) (chain k) = .ok Value.default := by
  have hlp : linesPrefix (chain k) = (chain k, false) := by
    cases k with
    | zero => rfl
    | succ k => rfl
  have h0 : At (nest m) 0 (nest m ++ []) := by simpa using At.zero (nest m)
  have h1 : At (nest m) 0 (c! '{' :: nestBody m) := by rw [← nest_eq]; exact At.zero _
  have hk : k < (chainPath k).extra.length + 2 := chain_room k
  obtain ⟨j, hj⟩ := objCount_nest get _ k m 0 [] hk h0
  have hg := objCount_result get (nest m) ((chainPath k).extra.length + 2) 0 (chainPath k)
  rw [hj] at hg
  rw [get_eq]
  unfold getBody getFirst Path.new
  rw [hlp]
  simp only [pathNext_eq, pNext_chain, ok_bind, chainPath_mod]
  unfold getStart
  simp only [Bool.false_eq_true, if_false]
  rw [if_neg h1.ne, h1.idx]
  simp only [ok_bind]
  rw [if_neg (by decide), if_pos trivial, ← hg]
  simp only [uncounted, ok_bind]
  cases k with
  | zero => rfl
  | succ k =>
    have : (chainPath (k + 1)).more = true := rfl
    rw [this]
    simp only [Bool.not_true, Bool.false_eq_true, if_false]
    unfold getIn
    have h1 : Value.default.owned = [] := rfl
    have h2 : (chainPath (k + 1)).extra = chain k := rfl
    simp only
    rw [if_neg (by decide), h1, h2, get_nil_chain k]
    rfl

end Gjson
