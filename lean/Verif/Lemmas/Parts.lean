import Verif.Lemmas.Prefix
import Verif.Lemmas.Mod
import Verif.Lemmas.Multi
/-
Groups of arbitrary components: what `#.` and `#(…)#.` map over the elements.
-/
namespace Gjson
open Spec

/-- A text that `path_next` reads as one component, whatever follows it. -/
def WholePart (k : Bytes) : Prop := ∀ {sep : UInt8} {rest t : Bytes}, Tail sep rest t →
  (pNext (k ++ t)).comp = k ∧ (pNext (k ++ t)).sep = sep ∧ (pNext (k ++ t)).extra = rest

theorem pNext_at {r : Bytes} (hs : (pNext (c! '@' :: r)).sep = 0) : (pNext (c! '@' :: r)).comp = c! '@' :: r := by
  have hm : pathNext (c! '@' :: r) = pathNextPlain (c! '@' :: r) true := by rw [pathNext, if_pos rfl]
  rw [pathNext_eq] at hm
  unfold pathNextPlain at hm
  obtain ⟨⟨i, sep, esc, pat, marg⟩, h1, h2⟩ := bind_eq_ok.1 hm.symm
  simp only at h2
  split at h2
  · simp only [ok_bind] at h2
    obtain ⟨rest, h5, h6⟩ := bind_eq_ok.1 h2
    rw [← Except.ok.inj h6]
  · rename_i hne
    split at h2
    · cases h2
    · obtain ⟨comp, h3, h4⟩ := bind_eq_ok.1 h2
      obtain ⟨rest, h5, h6⟩ := bind_eq_ok.1 h4
      rw [← Except.ok.inj h6] at hs
      exact absurd hs hne

theorem whole_call {n a m : Bytes} (h : ModCall n a m) : WholePart m := by
  intro sep rest t ht
  obtain ⟨_, _, _, h4, h5⟩ := pNext_mod h ht
  refine ⟨?_, h4, h5⟩
  cases t with
  | nil =>
    obtain ⟨rfl, rfl⟩ := ht
    obtain ⟨q, hq⟩ : ∃ q, m = c! '@' :: q := by cases h <;> exact ⟨_, rfl⟩
    subst hq
    rw [List.append_nil] at h4 ⊢
    exact pNext_at h4
  | cons c r =>
    obtain ⟨hc, rfl, rfl⟩ := ht
    have hs : (pNext (m ++ sep :: rest)).sep ≠ 0 := by
      rw [h4]; unfold IsSep at hc; grind
    have := ((pNext_ok (m ++ sep :: rest)).sep hs).2
    rw [h4, h5] at this
    exact (List.append_cancel_right this).symm

theorem whole_part {k : Bytes} (h : Part k) : WholePart k := by
  intro sep rest t ht
  cases h with
  | selector h =>
    obtain ⟨⟨e, p, hc⟩, hf, _⟩ := Selector.ord h
    rw [pNext_comp hc hf ht]
    exact ⟨rfl, rfl, rfl⟩
  | hash =>
    have := pNext_hashTail ht
    rw [show b!"#" ++ t = c! '#' :: t from rfl, this]
    exact ⟨rfl, rfl, rfl⟩
  | @first q lh rh op h =>
    have := pNext_query (queryText_pass h) (all := false) ht
    have e : queryComp q false = b!"#(" ++ (q ++ b!")") := rfl
    rw [e] at this
    rw [this]
    exact ⟨rfl, rfl, rfl⟩
  | @all q lh rh op h =>
    have := pNext_query (queryText_pass h) (all := true) ht
    have e : queryComp q true = b!"#(" ++ (q ++ b!")#") := rfl
    rw [e] at this
    rw [this]
    exact ⟨rfl, rfl, rfl⟩
  | call h => exact whole_call h ht
  | array hb =>
    rw [pNext_multi (.inl rfl) (by decide) hb ht]
    exact ⟨rfl, rfl, rfl⟩
  | object hb =>
    rw [pNext_multi (.inr rfl) (by decide) hb ht]
    exact ⟨rfl, rfl, rfl⟩

/-- The next component of a group followed by a pipe or nothing. -/
theorem whole_next {k : Bytes} {ks : List Bytes} {sep : UInt8} {rest t : Bytes} (h : WholePart k) (ht : Tail sep rest t) :
    (pNext (dotPath (k :: ks) ++ t)).comp = k ∧
    (ks = [] → (pNext (dotPath (k :: ks) ++ t)).sep = sep ∧ (pNext (dotPath (k :: ks) ++ t)).extra = rest) ∧
    (ks ≠ [] → (pNext (dotPath (k :: ks) ++ t)).sep = c! '.' ∧ (pNext (dotPath (k :: ks) ++ t)).extra = dotPath ks ++ t) := by
  cases ks with
  | nil => obtain ⟨h1, h2⟩ := h ht; exact ⟨h1, fun _ => h2, fun h => absurd rfl h⟩
  | cons k' ks =>
    have : dotPath (k :: k' :: ks) ++ t = k ++ c! '.' :: (dotPath (k' :: ks) ++ t) := by simp [dotPath]
    rw [this]
    obtain ⟨h1, h2⟩ := h (sep := c! '.') (rest := dotPath (k' :: ks) ++ t) (t := c! '.' :: (dotPath (k' :: ks) ++ t)) ⟨.inl rfl, rfl, rfl⟩
    exact ⟨h1, fun h => by simp at h, fun _ => h2⟩

theorem nextGroupLoop_whole {sep : UInt8} {rest t : Bytes} (ht : Tail sep rest t) (hs : sep ≠ c! '.') :
    ∀ (ks : List Bytes) (k : Bytes), (∀ x ∈ k :: ks, WholePart x) → ∀ (n len : Nat), (dotPath (k :: ks)).length < n →
      ∃ p : Path, p.sep = sep ∧ p.extra = rest ∧
        nextGroupLoop n (len + k.length) (pNext (dotPath (k :: ks) ++ t)) = .ok (len + (dotPath (k :: ks)).length, p)
  | [], k, ho, n, len, hn => by
    obtain ⟨_, h1, _⟩ := whole_next (ks := []) (ho k (by simp)) ht
    obtain ⟨h1, h2⟩ := h1 rfl
    obtain ⟨n, rfl⟩ : ∃ m, n = m + 1 := ⟨n - 1, by omega⟩
    unfold nextGroupLoop
    rw [if_neg (by rw [h1]; exact hs)]
    exact ⟨_, h1, h2, by simp [dotPath]⟩
  | k' :: ks, k, ho, n, len, hn => by
    obtain ⟨_, _, h2⟩ := whole_next (ks := k' :: ks) (ho k (by simp)) ht
    obtain ⟨h1, h2⟩ := h2 (by simp)
    obtain ⟨n, rfl⟩ : ∃ m, n = m + 1 := ⟨n - 1, by omega⟩
    unfold nextGroupLoop
    rw [if_pos h1, h2, pathNext_eq]
    simp only [ok_bind]
    have hlen : (dotPath (k :: k' :: ks)).length = k.length + 1 + (dotPath (k' :: ks)).length := by
      simp [dotPath]; omega
    obtain ⟨q, q1, q2, q3⟩ := nextGroupLoop_whole ht hs ks k' (fun x hx => ho x (List.mem_cons_of_mem _ hx)) n
      (len + k.length + 1) (by omega)
    rw [(whole_next (ks := ks) (ho k' (by simp)) ht).1, q3]
    exact ⟨q, q1, q2, by rw [hlen]; congr 2; omega⟩

/-- The group of a path, up to a pipe or the end. -/
theorem pGroup_whole {sep : UInt8} {rest t : Bytes} (ht : Tail sep rest t) (hs : sep ≠ c! '.')
    {ks : List Bytes} (ho : ∀ x ∈ ks, WholePart x) (hne : ks ≠ []) {p : Path} (hp : p.sep = c! '.') (hx : p.extra = dotPath ks ++ t) :
    (pGroup p).1 = dotPath ks ∧ (pGroup p).2.sep = sep ∧ (pGroup p).2.extra = rest := by
  obtain ⟨k, ks, rfl⟩ : ∃ k ks', ks = k :: ks' := by
    cases ks with
    | nil => exact absurd rfl hne
    | cons a b => exact ⟨a, b, rfl⟩
  obtain ⟨q, q1, q2, q3⟩ := nextGroupLoop_whole ht hs ks k ho (p.extra.length + 1) 0 (by rw [hx]; simp; omega)
  have hc := (whole_next (ks := ks) (ho k (by simp)) ht).1
  have h := nextGroup_eq p
  unfold Path.nextGroup at h
  rw [if_neg (by simp [hp]), pathNext_eq] at h
  simp only [ok_bind] at h
  rw [← hx] at q3 hc
  rw [hc] at h
  rw [Nat.zero_add, Nat.zero_add] at q3
  rw [q3] at h
  simp only [ok_bind] at h
  rw [slice_ok (by omega) (by rw [hx]; simp)] at h
  simp only [ok_bind, Except.ok.injEq] at h
  rw [← h]
  refine ⟨?_, q1, q2⟩
  simp only [sub, hx]; simp

/-- `#.group` on a sequence, followed by nothing or a pipe. -/
theorem sequence_mapAny {doc pre : Bytes} {vs : List Bytes} (h : Sequence doc pre vs) {ks : List Bytes} (ho : ∀ x ∈ ks, WholePart x)
    (hne : ks ≠ []) {sep : UInt8} {rest t : Bytes} (ht : Tail sep rest t) (hs : sep ≠ c! '.') {ws : List Value}
    (hw : Results (dotPath ks) vs ws) :
    get doc (pre ++ (b!"#." ++ (dotPath ks ++ t))) =
      (let w := mkOwned (arrayText (existing ws)) none INFO_ARRAY
       if sep = 0 then .ok w else getIn get w rest) := by
  have hnx : pNext (b!"#." ++ (dotPath ks ++ t)) = ⟨[c! '#'], false, false, c! '.', 0, dotPath ks ++ t⟩ :=
    pNext_hashTail ⟨.inl rfl, rfl, rfl⟩
  obtain ⟨vals, a1, a2, _, a3⟩ := sequence_get h
  rw [a3 _ rfl (by rw [hnx]; exact ⟨rfl, rfl⟩), hnx]
  obtain ⟨g1, g2, g3⟩ := pGroup_whole ht hs ho hne (p := ⟨[c! '#'], false, false, c! '.', 0, dotPath ks ++ t⟩) rfl rfl
  obtain ⟨l, l1, l2⟩ := collect_map a1 hw a2
  unfold gArrVals
  simp only [if_true]
  rw [g1, l1]
  simp only [ok_bind]
  unfold finish Path.more
  simp only [g2, g3]
  have : arrayOf l = mkOwned (arrayText (existing ws)) none INFO_ARRAY := by
    unfold arrayOf arrayText; rw [l2, joinComma_eq]
  rw [this]
  by_cases h0 : sep = 0 <;> simp [h0]

/-- `#(…)#.group` on a sequence, followed by nothing or a pipe. -/
theorem sequence_allMapAny {doc pre : Bytes} {vs : List Bytes} (h : Sequence doc pre vs) {q lh rh : Bytes} {op : Option Op}
    (hq : QueryText q lh op rh) {test : Bytes → Bool} (htest : ∀ e ∈ vs, ElemTest lh (opName op) rh e (test e))
    {ks : List Bytes} (ho : ∀ x ∈ ks, WholePart x) (hne : ks ≠ [])
    {sep : UInt8} {rest t : Bytes} (ht : Tail sep rest t) (hs : sep ≠ c! '.') {ws : List Value}
    (hw : Results (dotPath ks) (vs.filter test) ws) :
    get doc (pre ++ (queryComp q true ++ c! '.' :: (dotPath ks ++ t))) =
      (let w := mkOwned (arrayText (existing ws)) none INFO_ARRAY
       if sep = 0 then .ok w else getIn get w rest) := by
  obtain ⟨vals, a1, a2, _, a3⟩ := sequence_get h
  have hn := pNext_query (queryText_pass hq) (all := true) (sep := c! '.') (rest := dotPath ks ++ t)
    (t := c! '.' :: (dotPath ks ++ t)) ⟨.inl rfl, rfl, rfl⟩
  rw [a3 _ (linesPrefix_query _ _ _) (query_notMod (by rw [hn])), hn]
  have hp := parts_eq hq (p := ⟨queryComp q true, false, false, c! '.', 0, dotPath ks ++ t⟩) (all := true) rfl
  obtain ⟨g1, g2, g3⟩ := pGroup_whole ht hs ho hne (p := ⟨queryComp q true, false, false, c! '.', 0, dotPath ks ++ t⟩) rfl rfl
  have hc := collect_kept (f := fun v => getIn get v (dotPath ks)) a1 htest a2
  obtain ⟨l, l1, l2⟩ := collect_map (kept_aligned (test := test) a1) hw (kept_exist a2)
  have hg : gArrVals get ⟨queryComp q true, false, false, c! '.', 0, dotPath ks ++ t⟩ vals =
      .ok (mkOwned (arrayText (existing ws)) none INFO_ARRAY,
        (pGroup ⟨queryComp q true, false, false, c! '.', 0, dotPath ks ++ t⟩).2) := by
    obtain ⟨t', e1, e2, e3⟩ := queryComp_cons q true
    rw [gArrVals_all get vals e1 e2 e3, hp, g1]
    simp only [if_true]
    rw [hc, l1]
    simp only [ok_bind]
    unfold arrayOf arrayText
    rw [l2, joinComma_eq]
  rw [hg]
  simp only [ok_bind]
  unfold finish Path.more
  simp only [g2, g3]
  by_cases h0 : sep = 0 <;> simp [h0]

end Gjson
