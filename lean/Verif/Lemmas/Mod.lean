import Verif.Lemmas.Total
import Verif.Lemmas.Lookup
/-
Paths that start with a modifier: how `path_next` reads them and what `get` does.
-/
namespace Gjson
open Spec

theorem leafTok_closed {v r : Bytes} (h : IsValue v) (hv : ∀ c ∈ v.head?, c ∈ [c! '{', c! '[', c! '"']) :
    (leafTok (v ++ r)).2 = r := by
  obtain ⟨c, q, rfl, _⟩ := IsValue.cons h
  have hc := hv c (by simp)
  simp only [List.mem_cons, List.not_mem_nil, or_false] at hc
  by_cases hs : c = c! '"'
  · subst hs
    have hl : StrLit (c! '"' :: q) := by
      generalize e : c! '"' :: q = v at h
      cases h with
      | null => simp at e
      | true => simp at e
      | false => simp at e
      | str h => exact h
      | num h =>
        obtain ⟨c, _, rfl, hc⟩ := NumLit.cons h
        simp only [List.cons.injEq] at e
        rw [← e.1] at hc; unfold IsDigit at hc; simp at hc
      | arrEmpty _ => simp at e
      | arr _ _ _ => simp at e
      | objEmpty _ => simp at e
      | obj _ _ _ => simp at e
    rw [leafTok_str hl]
  · have hc' : c = c! '{' ∨ c = c! '[' := by grind
    obtain ⟨b, e, rfl, he, hb⟩ := Ws.pass_elems h rfl hc'
    have e1 : c :: (b ++ [e]) ++ r = c :: (b ++ e :: r) := by simp
    rw [e1]
    simp only [leafTok]
    rw [if_neg hs, if_pos hc', sq_close he hb]

theorem pathArgLoop_tail {extra : Bytes} {sep : UInt8} {t rest : Bytes} (ht : Tail sep rest t) :
    ∀ {a : Bytes}, c! '.' ∉ a → c! '|' ∉ a → ∀ (n i : Nat), At extra i (a ++ t) → a.length < n →
      pathArgLoop extra n i = .ok (i + a.length + (if sep = 0 then 0 else 1), sep)
  | [], _, _, n, i, h, hl => by
    obtain ⟨n, rfl⟩ : ∃ m, n = m + 1 := ⟨n - 1, by simp at hl; omega⟩
    rw [List.nil_append] at h
    unfold pathArgLoop
    cases t with
    | nil =>
      obtain ⟨rfl, rfl⟩ := ht
      rw [if_neg (by have := h.nil; omega)]; simp
    | cons c r =>
      obtain ⟨h1, rfl, rfl⟩ := ht
      unfold IsSep at h1
      rw [if_pos h.lt, h.idx]
      simp only [ok_bind]
      rw [if_pos h1, if_neg (by grind)]; simp
  | c :: a, h1, h2, n, i, h, hl => by
    obtain ⟨n, rfl⟩ : ∃ m, n = m + 1 := ⟨n - 1, by omega⟩
    rw [List.cons_append] at h
    unfold pathArgLoop
    rw [if_pos h.lt, h.idx]
    simp only [ok_bind]
    simp only [List.mem_cons, not_or] at h1 h2
    rw [if_neg (by grind), pathArgLoop_tail ht h1.2 h2.2 n (i + 1) h.cons (by simp at hl; omega)]
    simp only [List.length_cons]
    congr 2; omega

/-- What follows the name of a modifier. -/
inductive ModTail (sep : UInt8) (rest : Bytes) : Bytes → Bytes → Bytes → Prop
  | bare {t : Bytes} : Tail sep rest t → ModTail sep rest [] [] t
  | plain {a t : Bytes} : (∀ c ∈ a.head?, c ∉ [c! '{', c! '[', c! '"']) → c! '.' ∉ a → c! '|' ∉ a → Tail sep rest t →
      ModTail sep rest (c! ':' :: a) a t
  | json {a t : Bytes} : IsValue a → (∀ c ∈ a.head?, c ∈ [c! '{', c! '[', c! '"']) → Tail sep rest t →
      ModTail sep rest (c! ':' :: a) a t

theorem pathNextLoop_mod {extra : Bytes} {sep : UInt8} {rest x a t : Bytes} (hx : ModTail sep rest x a t) :
    ∀ (nm : Bytes), ModName nm → ∀ (n i : Nat) (e0 p0 : Bool), At extra i (nm ++ (x ++ t)) → nm.length < n →
      ∃ p, pathNextLoop extra true n i e0 p0 =
        .ok (i + nm.length + x.length + (if sep = 0 then 0 else 1), sep, e0, p, if x = [] then 0 else i + nm.length)
  | [], _, n, i, e0, p0, h, hl => by
    obtain ⟨n, rfl⟩ : ∃ m, n = m + 1 := ⟨n - 1, by simp at hl; omega⟩
    rw [List.nil_append] at h
    refine ⟨p0, ?_⟩
    unfold pathNextLoop
    cases hx with
    | bare ht =>
      rw [List.nil_append] at h
      cases t with
      | nil =>
        obtain ⟨rfl, rfl⟩ := ht
        rw [if_neg (by have := h.nil; omega)]; simp
      | cons c r =>
        obtain ⟨h1, rfl, rfl⟩ := ht
        unfold IsSep at h1
        rw [if_pos h.lt, h.idx]
        simp only [ok_bind, true_and]
        rw [if_neg (by grind), if_neg (by grind), if_neg (by grind), if_pos h1, if_neg (by grind)]
        simp
    | plain h1 h2 h3 ht =>
      rw [List.cons_append] at h
      rw [if_pos h.lt, h.idx]
      simp only [ok_bind, true_and]
      rw [if_neg (by decide), if_pos trivial]
      cases hat : a ++ t with
      | nil =>
        rw [hat] at h
        rw [if_pos h.cons.nil]
        simp only [List.append_eq_nil_iff] at hat
        obtain ⟨rfl, rfl⟩ := hat
        obtain ⟨rfl, rfl⟩ := ht
        simp
      | cons d r =>
        have h' := h.cons
        rw [hat] at h'
        rw [if_neg h'.ne, h'.idx]
        simp only [ok_bind]
        have hd : ¬ (d = c! '{' ∨ d = c! '[' ∨ d = c! '"') := by
          cases a with
          | nil =>
            rw [List.nil_append] at hat
            rw [hat] at ht
            have := ht.1
            unfold IsSep at this; grind
          | cons c a =>
            simp only [List.cons_append, List.cons.injEq] at hat
            have := h1 c (by simp)
            simp only [List.mem_cons, List.not_mem_nil, or_false] at this
            rw [← hat.1]; exact this
        rw [if_neg hd, pathArgLoop_tail ht h2 h3 _ (i + 1) h.cons (by have := h.cons.len; simp at this; omega)]
        simp only [ok_bind, List.length_cons, List.length_nil, Nat.add_zero]
        rw [if_neg (show ¬ c! ':' :: a = [] by simp)]
        congr 2; omega
    | json h1 h2 ht =>
      rw [List.cons_append] at h
      rw [if_pos h.lt, h.idx]
      simp only [ok_bind, true_and]
      rw [if_neg (by decide), if_pos trivial]
      have h3 := leafTok_closed (r := t) h1 h2
      obtain ⟨d, q, rfl, _⟩ := IsValue.cons h1
      have h' := h.cons
      rw [List.cons_append] at h'
      rw [if_neg h'.ne, h'.idx]
      simp only [ok_bind]
      rw [if_pos (by have := h2 d (by simp); simpa using this)]
      obtain ⟨j, e1, e2⟩ := procLeaf_at h'
      rw [← List.cons_append, h3] at e2
      rw [e1]
      simp only [ok_bind]
      have hj : j = i + 1 + (d :: q).length := by
        have a1 := e2.len
        have a2 := h'.len
        simp at a1 a2 ⊢; omega
      cases t with
      | nil =>
        obtain ⟨rfl, rfl⟩ := ht
        rw [if_neg (by have := e2.nil; omega), hj]
        simp; omega
      | cons c r =>
        obtain ⟨h4, rfl, rfl⟩ := ht
        unfold IsSep at h4
        rw [if_pos e2.lt, e2.idx]
        simp only [ok_bind]
        rw [if_pos (Or.comm.1 h4), hj, if_neg (by grind)]
        simp; omega
  | c :: nm, hn, n, i, e0, p0, h, hl => by
    obtain ⟨n, rfl⟩ : ∃ m, n = m + 1 := ⟨n - 1, by omega⟩
    rw [List.cons_append] at h
    have hc := hn c (by simp)
    simp only [List.mem_cons, List.not_mem_nil, or_false, not_or] at hc
    have ih := fun p0 => pathNextLoop_mod hx nm (fun c hc => hn c (by simp [hc])) n (i + 1) e0 p0 h.cons (by simp at hl; omega)
    have step : ∀ p0, ∃ p, pathNextLoop extra true n (i + 1) e0 p0 =
        .ok (i + (c :: nm).length + x.length + (if sep = 0 then 0 else 1), sep, e0, p, if x = [] then 0 else i + (c :: nm).length) := by
      intro p0
      obtain ⟨p, hp⟩ := ih p0
      refine ⟨p, ?_⟩
      rw [hp]
      have e : i + 1 + nm.length = i + (c :: nm).length := by simp; omega
      rw [e]
    unfold pathNextLoop
    rw [if_pos h.lt, h.idx]
    simp only [ok_bind, true_and]
    rw [if_neg hc.1, if_neg hc.2.2.2]
    split
    · exact step true
    · rw [if_neg (by grind)]
      exact step p0

/-- `path_next` on a modifier call. -/
theorem pNext_mod {n a m : Bytes} (hm : ModCall n a m) {sep : UInt8} {rest t : Bytes} (ht : Tail sep rest t) :
    (pNext (m ++ t)).isModifier = true ∧ modName (pNext (m ++ t)) = n ∧ modArg (pNext (m ++ t)) = a ∧
      (pNext (m ++ t)).sep = sep ∧ (pNext (m ++ t)).extra = rest := by
  have key : ∀ x, ModTail sep rest x a t → ModName n → (x = [] ∧ a = [] ∨ x = c! ':' :: a) → m = c! '@' :: (n ++ x) →
      (pNext (m ++ t)).isModifier = true ∧ modName (pNext (m ++ t)) = n ∧ modArg (pNext (m ++ t)) = a ∧
      (pNext (m ++ t)).sep = sep ∧ (pNext (m ++ t)).extra = rest := by
    intro x hx hn hxa hm'
    clear hm
    have hm := hm'
    clear hm'
    have hA : At (m ++ t) 0 ((c! '@' :: n) ++ (x ++ t)) := by
      have := At.zero (m ++ t)
      rw [hm] at this ⊢
      simpa using this
    have hn' : ModName (c! '@' :: n) := by
      intro c hc
      rcases List.mem_cons.1 hc with rfl | hc
      · decide
      · exact hn c hc
    obtain ⟨p, hp⟩ := pathNextLoop_mod hx (c! '@' :: n) hn' ((m ++ t).length + 1) 0 false false hA (by
      have := hA.len; simp at this ⊢; omega)
    have hml : m.length = 0 + (c! '@' :: n).length + x.length := by rw [hm]; simp; omega
    rw [← hml] at hp
    have hpn : pathNext (m ++ t) = pathNextPlain (m ++ t) true := by
      rw [hm]; unfold pathNext; simp only [List.cons_append]; rw [if_pos trivial]
    have hres : pathNextPlain (m ++ t) true = .ok ⟨m, false, p, sep, if x = [] then 0 else 0 + (c! '@' :: n).length, rest⟩ := by
      unfold pathNextPlain
      rw [hp]
      simp only [ok_bind]
      have ht' : Tail sep rest t := by cases hx <;> assumption
      cases t with
      | nil =>
        obtain ⟨rfl, rfl⟩ := ht'
        rw [if_pos rfl, if_pos rfl, List.append_nil]
        rw [show sliceFrom m (m.length + 0) = .ok [] from (At.end m).sliceFrom]
        rfl
      | cons c r =>
        obtain ⟨h1, rfl, rfl⟩ := ht'
        have h0 : sep ≠ 0 := by unfold IsSep at h1; grind
        rw [if_neg h0, if_neg h0, if_neg (by omega)]
        have hA : At (m ++ sep :: rest) 0 (m ++ sep :: rest) := At.zero _
        rw [hA.slice' (t := m) (by omega), (hA.append' (j := m.length) (by omega)).cons.sliceFrom]
        rfl
    have e : pNext (m ++ t) = ⟨m, false, p, sep, if x = [] then 0 else 0 + (c! '@' :: n).length, rest⟩ := by
      have := pathNext_eq (m ++ t)
      rw [hpn, hres] at this
      simpa using this.symm
    rw [e]
    refine ⟨by rw [hm]; rfl, ?_, ?_, rfl, rfl⟩
    · unfold modName
      simp only
      rcases hxa with ⟨rfl, rfl⟩ | rfl
      · rw [hm]; simp
      · rw [hm]; simp [sub]
    · unfold modArg
      simp only
      rcases hxa with ⟨rfl, rfl⟩ | rfl
      · simp
      · rw [if_neg (by simp), hm, if_neg (by simp)]
        have : c! '@' :: (n ++ c! ':' :: a) = (c! '@' :: n ++ [c! ':']) ++ a := by simp
        rw [this, List.drop_append]
        simp
  cases hm with
  | bare hn => exact key [] (.bare ht) hn (.inl ⟨rfl, rfl⟩) (by simp)
  | plain hn h1 h2 h3 => exact key _ (.plain h1 h2 h3 ht) hn (.inr rfl) rfl
  | json hn h1 h2 => exact key _ (.json h1 h2 ht) hn (.inr rfl) rfl

/-- `get` with a path that starts with a modifier call. -/
theorem get_mod {n a m : Bytes} (hm : ModCall n a m) {sep : UInt8} {rest t : Bytes} (ht : Tail sep rest t) (json : Bytes) :
    get json (m ++ t) = (modApply get n json a >>= fun out =>
      if sep = 0 then .ok (jsonIntoOwned (pParse 0 out)) else getIn get (jsonIntoOwned (pParse 0 out)) rest) := by
  obtain ⟨h1, h2, h3, h4, h5⟩ := pNext_mod hm ht
  have hl : linesPrefix (m ++ t) = (m ++ t, false) := by
    have : ∃ q, m ++ t = c! '@' :: q := by cases hm <;> exact ⟨_, rfl⟩
    obtain ⟨q, hq⟩ := this
    rw [hq]
    unfold linesPrefix
    cases q with
    | nil => rfl
    | cons d q => simp
  rw [get_eq, getBody, getFirst_eq, hl]
  simp only [h1, if_true, Bool.false_eq_true, if_false]
  rw [modExec_eq (pNext_ok _) h1, h2, h3]
  cases modApply get n json a with
  | error e => rfl
  | ok out =>
    simp only [ok_bind]
    unfold Path.more
    rw [h4, h5]
    by_cases h0 : sep = 0 <;> simp [h0]

end Gjson
