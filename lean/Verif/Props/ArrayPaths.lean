import Verif.Lemmas.GroupCut
import Verif.Props.QueryParts
import Verif.Props.Query
/-
C66: arrays and JSON lines, with every sequence of bytes as a path. Where the rest of the path is
applied to a result, the last part of each statement says that this is applying it to the text of
the result.
-/
namespace Gjson
open Spec

/-- C66: `next_group` takes the components up to the first pipe, whatever they are. -/
theorem C66_group (p : Path) (hp : p.sep = c! '.') (g r : Bytes) (sep : UInt8) :
    (∃ q, p.nextGroup = .ok (g, q) ∧ q.sep = sep ∧ q.extra = r) ↔ GroupOf p.extra g sep r := by
  constructor
  · rintro ⟨q, h, rfl, rfl⟩
    obtain ⟨g', s', r', hg⟩ := groupOf_exists _ p.extra (Nat.le_refl _)
    obtain ⟨h1, h2, h3⟩ := nextGroup_cut hp hg
    rw [nextGroup_eq] at h
    have e := Except.ok.inj h
    rw [e] at h1 h2 h3
    subst h1 h2 h3
    exact hg
  · intro h
    obtain ⟨h1, h2, h3⟩ := nextGroup_cut hp h
    exact ⟨(pGroup p).2, by rw [nextGroup_eq, ← h1], h2, h3⟩

/-- C66: there is exactly one such group. -/
theorem C66_one (s : Bytes) : ∃ g sep r, GroupOf s g sep r ∧ ∀ g' sep' r', GroupOf s g' sep' r' → g' = g ∧ sep' = sep ∧ r' = r := by
  obtain ⟨g, sep, r, h⟩ := groupOf_exists _ s (Nat.le_refl _)
  refine ⟨g, sep, r, h, fun g' sep' r' h' => ?_⟩
  obtain ⟨h1, h2, h3⟩ := nextGroup_cut (p := ⟨[], false, false, c! '.', 0, s⟩) rfl h
  obtain ⟨h4, h5, h6⟩ := nextGroup_cut (p := ⟨[], false, false, c! '.', 0, s⟩) rfl h'
  exact ⟨h4.symm.trans h1, h5.symm.trans h2, h6.symm.trans h3⟩

theorem hash_head {t : Bytes} : ∀ c ∈ (c! '#' :: t).head?, c ∉ b!"@[{" := by simp

/-- A query holds, or does not, for an element: the value its left side finds there (the element
itself without a left side) matches. What `queryMatches` means is C15. -/
def HoldsIn (lh op rh e : Bytes) (b : Bool) : Prop :=
  ∃ v, (if lh = [] then parse e else get e lh) = .ok v ∧ queryMatches v op rh = .ok b

section
variable {doc pre : Bytes} {vs : List Bytes} (h : Sequence doc pre vs) {path rest : Bytes} {sep : UInt8}
include h

/-- C66: anything but a `#`, a modifier or a multipath is an index or finds nothing. -/
theorem C66_index {k : Bytes} {e w : Bool} {m : Nat} (hc : CutUp path ⟨k, e, w, sep, m, rest⟩) (hl : ¬ b!".." <+: path)
    (hk : ∀ c ∈ k.head?, c ∉ b!"@#[{") : ∃ x, get doc (pre ++ path) = goOn x sep rest ∧
      (∀ n v, IndexText k n → n < 2 ^ 63 → vs[n]? = some v → SameAsText x v) ∧
      ((∀ n, IndexText k n → n < 2 ^ 63 → vs.length ≤ n) → x = Value.default) ∧
      ∀ p, SameRes (x.get p) (get x.json p) := by
  obtain ⟨vals, a1, a2, a3⟩ := sequence_cut h
  rw [a3 hc hl (fun c hc => by have := hk c hc; simp only [List.mem_cons, List.not_mem_nil, or_false, not_or] at this ⊢; exact ⟨this.1, this.2.2⟩)]
  have hg : gArrVals get (Spec.Parts.path ⟨k, e, w, sep, m, rest⟩) vals = .ok
      (if (parseI64 k).getD (-1) < 0 then Value.default else vals.getD ((parseI64 k).getD (-1)).toNat Value.default,
        Spec.Parts.path ⟨k, e, w, sep, m, rest⟩) := by
    unfold gArrVals
    simp only [Spec.Parts.path]
    cases k with
    | nil => rfl
    | cons c t =>
      have : ¬ c = c! '#' := by rintro rfl; exact hk _ rfl (by decide)
      simp only [if_neg this]
      rfl
  rw [hg]
  refine ⟨_, finish_goOn _ _, ?_, ?_, fun p => ?_⟩
  · intro n v hi hn hv
    rw [index_iff.1 ⟨hi, hn⟩]
    simp only [Option.getD_some]
    rw [if_neg (by omega), Int.toNat_natCast]
    obtain ⟨x, hx, hs⟩ := aligned_get a1 hv
    rw [List.getD_eq_getElem?_getD, hx]
    exact hs
  · intro hi
    cases hp : parseI64 k with
    | none => rfl
    | some z =>
      simp only [Option.getD_some]
      by_cases hz : z < 0
      · rw [if_pos hz]
      · rw [if_neg hz]
        obtain ⟨h1, h2⟩ := index_iff.2 (show parseI64 k = some ((z.toNat : Nat) : Int) by rw [hp]; congr 1; omega)
        rw [List.getD_eq_getElem?_getD, List.getElem?_eq_none]
        · rfl
        · rw [aligned_length a1]; exact hi _ h1 h2
  · by_cases hz : (parseI64 k).getD (-1) < 0
    · rw [if_pos hz]; exact oneText_get default_oneText p
    · rw [if_neg hz]; exact getD_get a2 _ p

/-- C66: `#` is the number of elements, unless a dot follows. -/
theorem C66_count (hc : CutUp path ⟨b!"#", false, false, sep, 0, rest⟩) (hs : sep ≠ c! '.') :
    ∃ x, get doc (pre ++ path) = goOn x sep rest ∧ x.exists = true ∧ x.kind = .number ∧ x.json = numeral vs.length ∧
      ∀ p, SameRes (x.get p) (get x.json p) := by
  obtain ⟨vals, a1, _, a3⟩ := sequence_cut h
  obtain ⟨t, ht⟩ := (cutUp_comp hc).1
  rw [a3 hc (by rw [← ht]; rintro ⟨x, hx⟩; cases hx) hash_head]
  have hg : gArrVals get (Spec.Parts.path ⟨b!"#", false, false, sep, 0, rest⟩) vals = .ok (mkOwned (natDec vals.length) none INFO_NUMBER,
      Spec.Parts.path ⟨b!"#", false, false, sep, 0, rest⟩) := by
    have hs' : (Spec.Parts.path ⟨b!"#", false, false, sep, 0, rest⟩).sep ≠ c! '.' := hs
    unfold gArrVals
    rw [if_neg hs']
    rfl
  rw [hg]
  refine ⟨_, finish_goOn _ _, ?_, by rw [mkOwned_kind]; decide, ?_, oneText_get (mkOwned_oneText _ _ _)⟩
  · rw [mkOwned_exists, natDec_eq]
    have := (numeral_spec vals.length).1
    simpa [List.length_pos_iff] using this
  · rw [mkOwned_json, natDec_eq, aligned_length a1]

/-- C66: `#.` gives what the group behind it finds in each element, in an array. -/
theorem C66_map {s g : Bytes} (hg : GroupOf s g sep rest) {ws : List Value} (hw : ResultsOf g vs ws) :
    ∃ x, get doc (pre ++ (b!"#." ++ s)) = goOn x sep rest ∧ x.exists = true ∧ x.kind = .array ∧ x.json = arrayText (found ws) ∧
      ∀ p, SameRes (x.get p) (get x.json p) := by
  obtain ⟨vals, a1, a2, a3⟩ := sequence_cut h
  have : b!"#." ++ s = c! '#' :: (c! '.' :: s) := rfl
  rw [this, a3 (.count (.sep (c := c! '.') (by decide))) (by rintro ⟨x, hx⟩; cases hx) hash_head]
  obtain ⟨g1, g2, g3⟩ := nextGroup_cut (p := Spec.Parts.path ⟨b!"#", false, false, c! '.', 0, s⟩) rfl hg
  obtain ⟨l, l1, l2⟩ := collect_map a1 hw a2
  have e : gArrVals get (Spec.Parts.path ⟨b!"#", false, false, c! '.', 0, s⟩) vals =
      .ok (arrayOf l, (pGroup (Spec.Parts.path ⟨b!"#", false, false, c! '.', 0, s⟩)).2) := by
    unfold gArrVals
    rw [g1]
    simp only [Spec.Parts.path, if_true]
    rw [l1]; rfl
  have : arrayOf l = mkOwned (arrayText (existing ws)) none INFO_ARRAY := by
    unfold arrayOf arrayText; rw [l2, joinComma_eq]
  rw [e, this]
  refine ⟨mkOwned (arrayText (existing ws)) none INFO_ARRAY, ?_, ?_, by rw [mkOwned_kind]; decide, mkOwned_json _ _ _, oneText_get (mkOwned_oneText _ _ _)⟩
  · have := finish_goOn (mkOwned (arrayText (existing ws)) none INFO_ARRAY) (pGroup (Spec.Parts.path ⟨b!"#", false, false, c! '.', 0, s⟩)).2
    rw [g2, g3] at this
    exact this
  · rw [mkOwned_exists]; rfl

/-- C66: `#(…)` is the first element for which the query holds. -/
theorem C66_first {q lh op rh : Bytes} {e w : Bool} {m : Nat} (hc : CutUp path ⟨b!"#(" ++ q ++ b!")", e, w, sep, m, rest⟩)
    (hq : QueryCut (b!"#(" ++ q ++ b!")") lh op rh) {test : Bytes → Bool} (ht : ∀ v ∈ vs, HoldsIn lh op rh v (test v)) :
    ∃ x, get doc (pre ++ path) = goOn x sep rest ∧ (match vs.find? test with | some v => SameAsText x v | none => x = Value.default) ∧
      ∀ p, SameRes (x.get p) (get x.json p) := by
  obtain ⟨vals, a1, a2, a3⟩ := sequence_cut h
  obtain ⟨t, hp⟩ := (cutUp_comp hc).1
  rw [a3 hc (by rw [← hp]; rintro ⟨x, hx⟩; cases hx) hash_head]
  obtain ⟨x, x1, x2⟩ := find_kept a1 ht a2
  refine ⟨x, ?_, x2, findR_get a2 x1⟩
  rw [gArrVals_first get vals (t := b!"(" ++ q ++ b!")") rfl (by simp) (by rw [List.getLast?_append]; simp),
    queryCut_pParts (p := Spec.Parts.path ⟨b!"#(" ++ q ++ b!")", e, w, sep, m, rest⟩) hq]
  simp only
  rw [x1]
  exact finish_goOn _ _

/-- C66: `#(…)#` is the array of all elements for which the query holds, unless a dot follows. -/
theorem C66_all {q lh op rh : Bytes} {e w : Bool} {m : Nat} (hc : CutUp path ⟨b!"#(" ++ q ++ b!")#", e, w, sep, m, rest⟩) (hs : sep ≠ c! '.')
    (hq : QueryCut (b!"#(" ++ q ++ b!")#") lh op rh) {test : Bytes → Bool} (ht : ∀ v ∈ vs, HoldsIn lh op rh v (test v)) :
    ∃ x, get doc (pre ++ path) = goOn x sep rest ∧ x.exists = true ∧ x.kind = .array ∧ x.json = arrayText (vs.filter test) ∧
      ∀ p, SameRes (x.get p) (get x.json p) := by
  obtain ⟨vals, a1, a2, a3⟩ := sequence_cut h
  obtain ⟨t, hp⟩ := (cutUp_comp hc).1
  rw [a3 hc (by rw [← hp]; rintro ⟨x, hx⟩; cases hx) hash_head]
  have hk := collect_kept (f := .ok) a1 ht a2
  have hid := collect_id ((vals.zip vs).filterMap (fun x => if test x.2 then some x.1 else none))
  simp only [ok_bind] at hk hid
  have hv : gArrVals get (Spec.Parts.path ⟨b!"#(" ++ q ++ b!")#", e, w, sep, m, rest⟩) vals =
      .ok (mkOwned (arrayText (vs.filter test)) none INFO_ARRAY, Spec.Parts.path ⟨b!"#(" ++ q ++ b!")#", e, w, sep, m, rest⟩) := by
    have hs' : (Spec.Parts.path ⟨b!"#(" ++ q ++ b!")#", e, w, sep, m, rest⟩).sep ≠ c! '.' := hs
    rw [gArrVals_all get vals (t := b!"(" ++ q ++ b!")#") rfl (by simp) (by rw [List.getLast?_append]; simp),
      queryCut_pParts (p := Spec.Parts.path ⟨b!"#(" ++ q ++ b!")#", e, w, sep, m, rest⟩) hq, pGroup_no _ hs']
    simp only [if_neg hs']
    rw [hk, hid]
    simp only [ok_bind]
    unfold arrayOf arrayText
    rw [existing_aligned (kept_aligned a1) (kept_exist a2), joinComma_eq]
  rw [hv]
  refine ⟨_, finish_goOn _ _, ?_, by rw [mkOwned_kind]; decide, mkOwned_json _ _ _, oneText_get (mkOwned_oneText _ _ _)⟩
  rw [mkOwned_exists]; rfl

/-- C66: with a dot behind it, `#(…)#` gives what the group behind it finds in each of them. -/
theorem C66_all_map {q lh op rh s g : Bytes} {e w : Bool} {m : Nat} (hc : CutUp path ⟨b!"#(" ++ q ++ b!")#", e, w, c! '.', m, s⟩)
    (hq : QueryCut (b!"#(" ++ q ++ b!")#") lh op rh) {test : Bytes → Bool} (ht : ∀ v ∈ vs, HoldsIn lh op rh v (test v))
    (hg : GroupOf s g sep rest) {ws : List Value} (hw : ResultsOf g (vs.filter test) ws) :
    ∃ x, get doc (pre ++ path) = goOn x sep rest ∧ x.exists = true ∧ x.kind = .array ∧ x.json = arrayText (found ws) ∧
      ∀ p, SameRes (x.get p) (get x.json p) := by
  obtain ⟨vals, a1, a2, a3⟩ := sequence_cut h
  obtain ⟨t, hp⟩ := (cutUp_comp hc).1
  rw [a3 hc (by rw [← hp]; rintro ⟨x, hx⟩; cases hx) hash_head]
  obtain ⟨g1, g2, g3⟩ := nextGroup_cut (p := Spec.Parts.path ⟨b!"#(" ++ q ++ b!")#", e, w, c! '.', m, s⟩) rfl hg
  have hk := collect_kept (f := fun v => getIn get v g) a1 ht a2
  obtain ⟨l, l1, l2⟩ := collect_map (kept_aligned (test := test) a1) hw (kept_exist a2)
  have hv : gArrVals get (Spec.Parts.path ⟨b!"#(" ++ q ++ b!")#", e, w, c! '.', m, s⟩) vals =
      .ok (mkOwned (arrayText (existing ws)) none INFO_ARRAY, (pGroup (Spec.Parts.path ⟨b!"#(" ++ q ++ b!")#", e, w, c! '.', m, s⟩)).2) := by
    have hs' : (Spec.Parts.path ⟨b!"#(" ++ q ++ b!")#", e, w, c! '.', m, s⟩).sep = c! '.' := rfl
    rw [gArrVals_all get vals (t := b!"(" ++ q ++ b!")#") rfl (by simp) (by rw [List.getLast?_append]; simp),
      queryCut_pParts (p := Spec.Parts.path ⟨b!"#(" ++ q ++ b!")#", e, w, c! '.', m, s⟩) hq, g1]
    simp only [if_pos hs']
    rw [hk, l1]
    simp only [ok_bind]
    unfold arrayOf arrayText
    rw [l2, joinComma_eq]
  rw [hv]
  refine ⟨mkOwned (arrayText (existing ws)) none INFO_ARRAY, ?_, ?_, by rw [mkOwned_kind]; decide, mkOwned_json _ _ _, oneText_get (mkOwned_oneText _ _ _)⟩
  · have := finish_goOn (mkOwned (arrayText (existing ws)) none INFO_ARRAY) (pGroup (Spec.Parts.path ⟨b!"#(" ++ q ++ b!")#", e, w, c! '.', m, s⟩)).2
    rw [g2, g3] at this
    exact this
  · rw [mkOwned_exists]; rfl

end

/-- Components of every kind are asked of each element; a malformed one ends the group. -/
example : GroupOf b!"a.#(b.c)#.{x,y}|d.e" b!"a.#(b.c)#.{x,y}" (c! '|') b!"d.e" :=
  (C66_group ⟨[], false, false, c! '.', 0, b!"a.#(b.c)#.{x,y}|d.e"⟩ rfl _ _ _).1 ⟨⟨[], false, false, c! '|', 0, b!"d.e"⟩, by decide +kernel, rfl, rfl⟩
example : GroupOf b!"a.#(b.c)x|d" b!"a." 0 [] :=
  (C66_group ⟨[], false, false, c! '.', 0, b!"a.#(b.c)x|d"⟩ rfl _ _ _).1 ⟨⟨[], false, false, 0, 0, []⟩, by decide +kernel, rfl, rfl⟩

/-- A query with a lone `!`, which no value matches. -/
example : ∃ x, get sampleArr b!"#(!1)#" = .ok x ∧ x.json = b!"[]" := by
  obtain ⟨x, h1, _, _, h2, _⟩ := C66_all (.array sampleArr_isArray (padded_self _)) (path := b!"#(!1)#") (sep := 0) (rest := []) (q := b!"!1")
    (lh := []) (op := b!"!") (rh := b!"1") (test := fun _ => false)
    ((C64_exact _ ⟨b!"#(!1)#", false, false, 0, 0, []⟩).1 (by decide +kernel)) (by decide)
    ((C65_exact ⟨b!"#(!1)#", false, false, 0, 0, []⟩ _ _ _).1 (by decide +kernel))
    (by intro v hv; simp at hv; rcases hv with rfl | rfl <;> exact ⟨_, rfl, by decide +kernel⟩)
  exact ⟨x, h1, h2⟩
example : (get b!"[{\"a\":[{\"b\":1,\"c\":2}]},3]" b!"#.a.#(b=1)#.{c}|0|0").toOption.map Value.json = some b!"{\"c\":2}" := by decide +kernel

end Gjson
