import Verif.Lemmas.SeekTotal
import Verif.Props.ArrayPaths
import Verif.Props.Total
import Verif.Props.Search
import Verif.Props.Multi
/-
C67: what is found in a JSON document, with every sequence of bytes as a path.
-/
namespace Gjson
open Spec

theorem get_seek {doc v path : Bytes} {P : Parts} {o : Option Landing} (hv : IsValue v) (hd : Padded v doc) (hc : CutUp path P)
    (hl : ¬ b!".." <+: path) (hk : ¬ Computes P.comp) (hs : Seek libAsks v P o) :
    match o with
    | some r => ∃ u p, get doc path = finish (u, p) ∧ SameAsText u r.text ∧ OneText u ∧ p.sep = r.sep ∧ p.extra = r.rest
    | none => get doc path = finish (Value.default, P.path) := by
  have hlp : linesPrefix path = (path, false) := by
    unfold linesPrefix
    split
    · rename_i a b rest
      rw [if_neg]
      rintro ⟨rfl, rfl⟩
      exact hl ⟨rest, rfl⟩
    · rfl
  have hg := get_start hlp (by rw [cut_next hc]; exact (computes_path P).2 hk) doc
  rw [cut_next hc] at hg
  obtain ⟨w1, w2, h1, h2, rfl⟩ := hd
  rw [gStart_ws _ _ _ h1] at hg
  by_cases hcont : IsCont v
  · rw [gStart_cont _ _ _ hcont] at hg
    have := seek_reaches hs hcont (w1 ++ (v ++ w2)).length w2
    cases o with
    | none => rw [hg, show gCont _ _ _ _ = _ from this, ok_bind]
    | some r =>
      obtain ⟨u, p, e, e1, e2, _, e3, e4⟩ := this
      exact ⟨u, p, by rw [hg, e, ok_bind], e1, e2, e3, e4⟩
  · rw [gStart_noCont _ _ _ (noCont_scalar hv hcont w2), ok_bind] at hg
    cases hs with
    | scalar => exact hg
    | obj ho => exact absurd (IsObject.isCont ho) hcont
    | arr ha => exact absurd (IsArray.isCont ha) hcont

section
variable {doc v path : Bytes} {P : Parts} (hv : IsValue v) (hd : Padded v doc) (hc : CutUp path P) (hl : ¬ b!".." <+: path)
  (hk : ¬ Computes P.comp)
include hv hd hc hl hk

/-- C67: if the search ends with the path, `get` returns what it found; otherwise `get` returns
what the rest of the path finds in that. -/
theorem C67_found {r : Landing} (hs : Seek libAsks v P (some r)) :
    if r.sep = 0 then ∃ u, get doc path = .ok u ∧ SameAsText u r.text else SameRes (get doc path) (get r.text r.rest) := by
  obtain ⟨u, p, h1, h2, h3, h4, h5⟩ := get_seek hv hd hc hl hk hs
  rw [finish_goOn, h4, h5] at h1
  unfold goOn at h1
  split
  · rename_i h0
    rw [if_pos h0] at h1
    exact ⟨u, h1, h2⟩
  · rename_i h0
    rw [if_neg h0] at h1
    rw [h1, ← h2.1]
    exact getIn_same h3 _

/-- C67: if the search finds nothing, `get` returns the missing value, or what the rest of the
path behind the first component makes of nothing. -/
theorem C67_nothing (hs : Seek libAsks v P none) :
    if P.sep = 0 then get doc path = .ok Value.default else SameRes (get doc path) (get [] P.rest) := by
  have h1 := get_seek hv hd hc hl hk hs
  simp only at h1
  rw [finish_goOn] at h1
  unfold goOn at h1
  have e1 : P.path.sep = P.sep := rfl
  have e2 : P.path.extra = P.rest := rfl
  rw [e1, e2] at h1
  split
  · rename_i h0
    rw [if_pos h0] at h1
    exact h1
  · rename_i h0
    rw [if_neg h0] at h1
    rw [h1]
    exact getIn_same default_oneText _

end

/-- C67: every search has an outcome, for every path on which `get` does not panic by C04. -/
theorem C67_total {v path : Bytes} {P : Parts} (hv : IsValue v) (hc : CutUp path P) (hk : ¬ Computes P.comp) (hn : ¬ PrefixInQuery path) :
    ∃ o, Seek libAsks v P o := seek_total _ (Nat.lt_succ_self _) hc hk (need_cut hc hn) v hv

/-- C67: and no more than one. -/
theorem C67_one {v : Bytes} {P : Parts} {o o' : Option Landing} (h : Seek libAsks v P o) (h' : Seek libAsks v P o') : o = o' := by
  by_cases hc : IsCont v
  · have h1 := seek_reaches h hc 0 []
    have h2 := seek_reaches h' hc 0 []
    generalize gCont get 0 P.path (v ++ []) = x at h1 h2
    cases o with
    | none =>
      cases o' with
      | none => rfl
      | some r' =>
        obtain ⟨u, p, e1, e2, _, e3, _⟩ := h2
        have h1 : x = _ := h1
        rw [h1] at e1
        cases e1
        exact absurd (sameAsText_exists e2 e3) (by decide)
    | some r =>
      obtain ⟨u, p, e1, e2, _, e3, e4, e5⟩ := h1
      cases o' with
      | none =>
        have h2 : x = _ := h2
        rw [e1] at h2
        cases h2
        exact absurd (sameAsText_exists e2 e3) (by decide)
      | some r' =>
        obtain ⟨u', p', f1, f2, _, _, f4, f5⟩ := h2
        rw [e1] at f1
        cases f1
        obtain ⟨a, b, c⟩ := r
        obtain ⟨a', b', c'⟩ := r'
        congr 2
        · exact e2.1.symm.trans f2.1
        · exact e4.symm.trans f4
        · exact e5.symm.trans f5
  · have key : ∀ {o}, Seek libAsks v P o → o = none := by
      intro o h
      cases h with
      | scalar => rfl
      | obj ho => exact absurd (IsObject.isCont ho) hc
      | arr ha => exact absurd (IsArray.isCont ha) hc
    rw [key h, key h']

/-- In this document `#` is a key of the outer object, and maps over the array inside. -/
example : ∃ w, get b!"{\"#\":[{\"b\":1},{\"b\":2}]}" b!"#.#.b|1" = .ok w ∧ w.json = b!"2" := by
  have h1 : IsObject b!"{\"#\":[{\"b\":1},{\"b\":2}]}" [(b!"\"#\"", b!"[{\"b\":1},{\"b\":2}]")] :=
    isObject_of (t := b!"{\"#\":[{\"b\":1},{\"b\":2}]}") (by decide +kernel) (by decide) (by decide) (by decide +kernel)
  have hb : ∀ v ∈ [b!"{\"b\":1}", b!"{\"b\":2}"], IsValue v := by
    intro v hv
    simp only [List.mem_cons, List.not_mem_nil, or_false] at hv
    rcases hv with rfl | rfl <;> exact value_of_valid (by decide +kernel) (by decide)
  have h2 : IsArray b!"[{\"b\":1},{\"b\":2}]" [b!"{\"b\":1}", b!"{\"b\":2}"] := C35_array_isArray hb
  have c1 : CutUp b!"#.#.b|1" ⟨b!"#", false, false, c! '.', 0, b!"#.b|1"⟩ := (C64_exact b!"#.#.b|1" ⟨b!"#", false, false, c! '.', 0, b!"#.b|1"⟩).1 (by decide +kernel)
  have c2 : CutUp b!"#.b|1" ⟨b!"#", false, false, c! '.', 0, b!"b|1"⟩ := (C64_exact b!"#.b|1" ⟨b!"#", false, false, c! '.', 0, b!"b|1"⟩).1 (by decide +kernel)
  have c3 : CutUp b!"b|1" ⟨b!"b", false, false, c! '|', 0, b!"1"⟩ := (C64_exact b!"b|1" ⟨b!"b", false, false, c! '|', 0, b!"1"⟩).1 (by decide +kernel)
  have hs : Seek libAsks b!"{\"#\":[{\"b\":1},{\"b\":2}]}" ⟨b!"#", false, false, c! '.', 0, b!"#.b|1"⟩ (some ⟨b!"[1,2]", c! '|', b!"1"⟩) := by
    refine .obj h1 (.into ⟨b!"#", keyIsB_iff.1 (by decide +kernel), by simp⟩ rfl (.inr (by decide)) c2 (by unfold Computes; simp) (.arr h2 ?_))
    have ask : Aligned (fun e o => libAsks.ask e b!"b" o) [b!"{\"b\":1}", b!"{\"b\":2}"] [some b!"1", some b!"2"] :=
      .cons ⟨mkVal b!"1" (some 5) INFO_NUMBER, by decide +kernel, by decide +kernel⟩
        (.cons ⟨mkVal b!"2" (some 5) INFO_NUMBER, by decide +kernel, by decide +kernel⟩ .nil)
    exact .map (.last c3 (by decide)) ask
  have := C67_found (value_of_valid (by decide +kernel) (by decide)) (padded_self _) c1 (by decide) (by unfold Computes; simp) hs
  rw [if_neg (by decide)] at this
  have e : get b!"[1,2]" b!"1" = .ok (mkVal b!"2" (some 3) INFO_NUMBER) := by decide +kernel
  simp only at this
  rw [e] at this
  generalize get b!"{\"#\":[{\"b\":1},{\"b\":2}]}" b!"#.#.b|1" = y at this
  cases this with
  | ok h => exact ⟨_, rfl, h.json.trans (mkVal_json _ _ _)⟩

/-- What is found is handed to a modifier behind a dot as it is; a query is a key on an object. -/
example : (get b!"{\"#(a=1)\":{\"x\":2}}" b!"#(a=1).@this").toOption.map Value.json = some b!"{\"x\":2}" := by decide +kernel

end Gjson
