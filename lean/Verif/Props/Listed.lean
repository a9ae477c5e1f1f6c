import Verif.Lemmas.Listed
import Verif.Lemmas.Void
import Verif.Props.Prefix
/-
C60: an array value, of any text whether JSON or not, is the list that `array`
returns. Counting, indexing, mapping and querying it can be done on that list; two
arrays with the same elements cannot be told apart by a path without modifiers; and
`..` treats a text as an array that holds its values.
-/
namespace Gjson
open Spec

/-- `x.get(path)` on every element. -/
def Maps (path : Bytes) (vs ws : List Value) : Prop := Aligned (fun x w => x.get path = .ok w) vs ws

/-- `HoldsFor lh op rh x b`: on the element `x`, the query `lh op rh` gives `b`. The
value compared is the element itself, or the result of `x.get(lh)`. What
`queryMatches` means is C15. -/
def HoldsFor (lh : Bytes) (op : Option Op) (rh : Bytes) (x : Value) (b : Bool) : Prop :=
  ∃ v, (if lh = [] then .ok x else x.get lh) = .ok v ∧ queryMatches v (opName op) rh = .ok b

theorem collect_vals {path : Bytes} {vs ws : List Value} (h : Maps path vs ws) :
    collectR (fun v => do .ok (some (← getIn get v path))) vs = .ok ws := by
  induction h with
  | nil => rfl
  | @cons x w vs ws hx _ ih =>
    rw [collectR_cons, show getIn get x path = .ok w from hx]
    simp only [ok_bind]
    rw [show collectR (fun v => getIn get v path >>= fun y => .ok (some y)) vs = .ok ws from ih]
    rfl

theorem elemMatches_val {lh rh : Bytes} {op : Option Op} {x : Value} {b : Bool} (h : HoldsFor lh op rh x b) :
    elemMatches get lh (opName op) rh x = .ok b := by
  obtain ⟨w, h1, h2⟩ := h
  unfold elemMatches
  by_cases hl : lh = []
  · rw [if_pos hl] at h1
    rw [if_neg (by simpa using hl)]
    cases h1; exact h2
  · rw [if_neg hl] at h1
    rw [if_pos (by simpa using hl), show getIn get x lh = .ok w from h1, ok_bind, h2]

theorem find_vals {lh rh : Bytes} {op : Option Op} {test : Value → Bool} : ∀ {vs : List Value},
    (∀ x ∈ vs, HoldsFor lh op rh x (test x)) → findR (elemMatches get lh (opName op) rh) vs = .ok ((vs.find? test).getD Value.default)
  | [], _ => rfl
  | x :: vs, h => by
    unfold findR
    rw [elemMatches_val (h x (by simp)), List.find?_cons]
    cases test x with
    | true => rfl
    | false =>
      simp only [ok_bind, Bool.false_eq_true, if_false]
      exact find_vals fun y hy => h y (by simp [hy])

theorem filter_vals {lh rh : Bytes} {op : Option Op} {test : Value → Bool} (f : Value → Res Value) : ∀ {vs : List Value},
    (∀ x ∈ vs, HoldsFor lh op rh x (test x)) →
    collectR (fun v => do if ← elemMatches get lh (opName op) rh v then do .ok (some (← f v)) else .ok none) vs =
      collectR (fun v => do .ok (some (← f v))) (vs.filter test)
  | [], _ => rfl
  | x :: vs, h => by
    have ih := filter_vals (test := test) f (vs := vs) fun y hy => h y (by simp [hy])
    rw [collectR_cons, ih, elemMatches_val (h x (by simp)), List.filter_cons]
    generalize vs.filter test = L
    cases test x with
    | false =>
      simp only [Bool.false_eq_true, if_false, ok_bind]
      cases collectR (fun v => do .ok (some (← f v))) L <;> rfl
    | true => simp only [if_true, ok_bind, collectR_cons]

theorem sameRes_ok {a : Res Value} {w : Value} (h : SameRes a (.ok w)) : ∃ u, a = .ok u ∧ SameValue u w := by
  cases h with | ok h => exact ⟨_, rfl, h⟩

theorem arrayOf_found (ws : List Value) : (arrayOf ws).exists = true ∧ (arrayOf ws).kind = .array ∧ (arrayOf ws).json = arrayText (found ws) := by
  refine ⟨arrayOf_exists ws, ?_, ?_⟩
  · unfold arrayOf; rw [mkOwned_kind]; decide
  · unfold arrayOf arrayText; rw [mkOwned_json, joinComma_eq]; rfl

/-- A text that is no JSON: no commas, a stray colon, no end. -/
def rubble : Bytes := b!" [1 {\"a\":2} : \"x\",,{\"a\":[5 6]} [7"

/-- Its elements: what is not closed is left out. -/
example : ∃ v vs, parse rubble = .ok v ∧ Handed v ∧ v.exists = true ∧ v.kind = .array ∧ v.array = .ok vs ∧
    vs.map (·.json) = [b!"1", b!"{\"a\":2}", b!"\"x\"", b!"{\"a\":[5 6]}"] ∧ valid rubble = .ok false := by
  refine ⟨_, _, rfl, .parse (t := rubble) rfl, ?_, ?_, rfl, ?_, ?_⟩ <;> decide +kernel

section
variable {v : Value} {vs : List Value} (h : Handed v) (hk : v.kind = .array) (ha : v.array = .ok vs)
include h hk ha

theorem listed_of : (∀ x ∈ vs, OneText x ∧ x.exists = true ∧ x.json = x.slice) ∧
    ∀ {path}, LooksUp path → SameRes (v.get path) (gArrVals Gjson.get (pNext path) vs >>= finish) := by
  obtain ⟨vals, h1, h2⟩ := h.listed (h.array_exists hk) hk
  rw [ha] at h1
  cases h1
  exact h2

/-- C60: `#` is the number of elements. -/
theorem C60_count : ∃ w, v.get b!"#" = .ok w ∧ w.kind = .number ∧ w.json = numeral vs.length := by
  obtain ⟨_, h3⟩ := listed_of h hk ha
  have h4 := h3 (looksUp_hash [])
  rw [pNext_hashTail (sep := 0) (rest := []) (t := []) ⟨rfl, rfl⟩] at h4
  have h5 : gArrVals Gjson.get ⟨[c! '#'], false, false, 0, 0, []⟩ vs =
      .ok (mkOwned (natDec vs.length) none INFO_NUMBER, ⟨[c! '#'], false, false, 0, 0, []⟩) := rfl
  rw [h5] at h4
  obtain ⟨w, h6, h7⟩ := sameRes_ok h4
  refine ⟨w, h6, ?_, ?_⟩
  · rw [h7.kind, mkOwned_kind]; decide
  · rw [h7.json, mkOwned_json, natDec_eq]

/-- C60: an index is the element of that number, or nothing. -/
theorem C60_index {k : Bytes} {n : Nat} (hp : PlainKey k) (hi : IndexText k n) (hn : n < 2 ^ 63) :
    ∃ w, v.get k = .ok w ∧ (∀ x, vs[n]? = some x → w.exists = true ∧ SameValue w x) ∧ (vs[n]? = none → w.exists = false) := by
  obtain ⟨h2, h3⟩ := listed_of h hk ha
  have e := pNext_plain hp (sep := 0) (rest := []) (t := []) ⟨rfl, rfl⟩
  rw [List.append_nil] at e
  have h4 := h3 (path := k) ⟨linesPrefix_single hp, by rw [e]; exact plainPath_mod hp _ _⟩
  rw [e, gArrVals_index _ hp hi hn, ok_bind, finish, plain_more] at h4
  obtain ⟨w, h5, h6⟩ := sameRes_ok h4
  refine ⟨w, h5, fun x hx => ?_, fun hx => ?_⟩
  · have : vs.getD n Value.default = x := by simp [hx]
    simp only at h6
    rw [this] at h6
    refine ⟨?_, h6⟩
    rw [h6.exists]
    exact (h2 x (List.mem_of_getElem? hx)).2.1
  · have : vs.getD n Value.default = Value.default := by simp [hx]
    simp only at h6
    rw [this] at h6
    rw [h6.exists]; rfl

/-- C60: what follows an index applies to the element. -/
theorem C60_index_rest {k : Bytes} {n : Nat} (hp : PlainKey k) (hi : IndexText k n) (hn : n < 2 ^ 63) {c : UInt8}
    (hc : c = c! '.' ∨ c = c! '|') (rest : Bytes) {x : Value} (hx : vs[n]? = some x) :
    SameRes (v.get (k ++ c :: rest)) (x.get rest) := by
  obtain ⟨h2, h3⟩ := listed_of h hk ha
  have e := pNext_plain hp (sep := c) (rest := rest) (t := c :: rest) ⟨hc, rfl, rfl⟩
  have hne : k ≠ [] := by rintro rfl; obtain ⟨ds, d1, d2, d3, d4⟩ := hi; simp at d4; exact d1 d4
  have h4 := h3 (path := k ++ c :: rest) ⟨linesPrefix_plain hp hne _, by rw [e]; exact plainPath_mod hp _ _⟩
  have hc0 : c ≠ 0 := by rcases hc with rfl | rfl <;> decide
  rw [e, gArrVals_index _ hp hi hn, ok_bind, finish, plain_more] at h4
  have : vs.getD n Value.default = x := by simp [hx]
  simp only [hc0, ne_eq, not_false_eq_true, decide_true, Bool.not_true, Bool.false_eq_true, if_false, this] at h4
  exact h4

/-- C60: `#.path` is the array of what the path finds in the elements. -/
theorem C60_map {ks : List Bytes} (hks : ∀ k ∈ ks, Part k) (hne : ks ≠ []) {ws : List Value} (hw : Maps (dotPath ks) vs ws) :
    ∃ w, v.get (b!"#." ++ dotPath ks) = .ok w ∧ w.exists = true ∧ w.kind = .array ∧ w.json = arrayText (found ws) := by
  obtain ⟨_, h3⟩ := listed_of h hk ha
  have h4 := h3 (looksUp_hash (c! '.' :: dotPath ks))
  rw [pNext_hashTail (sep := c! '.') (rest := dotPath ks) (t := c! '.' :: dotPath ks) ⟨.inl rfl, rfl, rfl⟩] at h4
  obtain ⟨g1, g2, g3⟩ := pGroup_whole (sep := 0) (rest := []) (t := []) ⟨rfl, rfl⟩ (by decide) (fun k h => whole_part (hks k h)) hne
    (p := ⟨[c! '#'], false, false, c! '.', 0, dotPath ks⟩) rfl (by simp)
  have h5 : gArrVals Gjson.get ⟨[c! '#'], false, false, c! '.', 0, dotPath ks⟩ vs =
      .ok (arrayOf ws, (pGroup ⟨[c! '#'], false, false, c! '.', 0, dotPath ks⟩).2) := by
    unfold gArrVals
    simp only [if_true]
    rw [g1, collect_vals hw]
    rfl
  rw [h5, ok_bind] at h4
  unfold finish Path.more at h4
  simp only [g2] at h4
  obtain ⟨w, h6, h7⟩ := sameRes_ok h4
  obtain ⟨a1, a2, a3⟩ := arrayOf_found ws
  exact ⟨w, h6, by rw [h7.exists, a1], by rw [h7.kind, a2], by rw [h7.json, a3]⟩

/-- C60: `#(query)` is the first element for which the query holds. -/
theorem C60_first {q lh rh : Bytes} {op : Option Op} (hq : QueryText q lh op rh) {test : Value → Bool}
    (ht : ∀ x ∈ vs, HoldsFor lh op rh x (test x)) :
    ∃ w, v.get (b!"#(" ++ (q ++ b!")")) = .ok w ∧
      (∀ before x after, vs = before ++ x :: after → (∀ y ∈ before, test y = false) → test x = true →
        w.exists = true ∧ SameValue w x) ∧
      ((∀ x ∈ vs, test x = false) → w.exists = false) := by
  obtain ⟨h2, h3⟩ := listed_of h hk ha
  have hn := pNext_query (queryText_pass hq) (all := false) (sep := 0) (rest := []) (t := []) ⟨rfl, rfl⟩
  have h4 := h3 (path := queryComp q false ++ []) ⟨linesPrefix_query _ _ _, query_notMod (by rw [hn])⟩
  have hp := parts_eq hq (p := ⟨queryComp q false, false, false, 0, 0, []⟩) (all := false) rfl
  obtain ⟨t', e1, e2, e3⟩ := queryComp_cons q false
  rw [hn, gArrVals_first get vs (path := ⟨queryComp q false, false, false, 0, 0, []⟩) e1 e2 (by rw [e3]; decide), hp] at h4
  simp only at h4
  rw [find_vals ht] at h4
  obtain ⟨w, h5, h6⟩ := sameRes_ok (w := (vs.find? test).getD Value.default) h4
  refine ⟨w, by simpa [queryComp] using h5, ?_, fun hf => ?_⟩
  · rintro before x after rfl hb hx
    have : (before ++ x :: after).find? test = some x := by
      rw [List.find?_append, List.find?_eq_none.2 (by simpa using hb), List.find?_cons, hx]; rfl
    rw [this] at h6
    exact ⟨by rw [h6.exists]; exact (h2 x (by simp)).2.1, h6⟩
  · rw [List.find?_eq_none.2 (by simpa using hf)] at h6
    rw [h6.exists]; rfl

/-- C60: `#(query)#` is the array of the elements for which the query holds. -/
theorem C60_all {q lh rh : Bytes} {op : Option Op} (hq : QueryText q lh op rh) {test : Value → Bool}
    (ht : ∀ x ∈ vs, HoldsFor lh op rh x (test x)) :
    ∃ w, v.get (b!"#(" ++ (q ++ b!")#")) = .ok w ∧ w.exists = true ∧ w.kind = .array ∧
      w.json = arrayText ((vs.filter test).map fun x => x.json) := by
  obtain ⟨h2, h3⟩ := listed_of h hk ha
  have hn := pNext_query (queryText_pass hq) (all := true) (sep := 0) (rest := []) (t := []) ⟨rfl, rfl⟩
  have h4 := h3 (path := queryComp q true ++ []) ⟨linesPrefix_query _ _ _, query_notMod (by rw [hn])⟩
  have hp := parts_eq hq (p := ⟨queryComp q true, false, false, 0, 0, []⟩) (all := true) rfl
  obtain ⟨t', e1, e2, e3⟩ := queryComp_cons q true
  have hc := filter_vals (f := .ok) ht
  have hid := collect_id (vs.filter test)
  simp only [ok_bind] at hc hid
  rw [hn, gArrVals_all get vs (path := ⟨queryComp q true, false, false, 0, 0, []⟩) e1 e2 e3, hp, pGroup_no _ (show (0 : UInt8) ≠ c! '.' by decide)] at h4
  simp only [show ¬ (0 : UInt8) = c! '.' from by decide, if_false] at h4
  rw [hc, hid] at h4
  obtain ⟨w, h5, h6⟩ := sameRes_ok (w := arrayOf (vs.filter test)) h4
  obtain ⟨a1, a2, a3⟩ := arrayOf_found (vs.filter test)
  refine ⟨w, by simpa [queryComp] using h5, by rw [h6.exists, a1], by rw [h6.kind, a2], ?_⟩
  rw [h6.json, a3, found, List.filter_eq_self.2]
  intro x hx
  exact (h2 x (List.mem_filter.1 hx).1).2.1

end

/-- All of these, on the text above. -/
example : (parse rubble >>= fun v => v.get b!"#") >>= (fun w => .ok w.json) = .ok b!"4" := by decide +kernel
example : ((parse rubble >>= fun v => v.get b!"3.a.1") >>= fun w => .ok w.json) = .ok b!"6" ∧
    ((parse rubble >>= fun v => v.get b!"4") >>= fun w => .ok w.exists) = .ok false ∧
    ((parse rubble >>= fun v => v.get b!"#.a") >>= fun w => .ok w.json) = .ok b!"[2,[5 6]]" ∧
    ((parse rubble >>= fun v => v.get b!"#(a=2)") >>= fun w => .ok w.json) = .ok b!"{\"a\":2}" ∧
    ((parse rubble >>= fun v => v.get b!"#(a)#") >>= fun w => .ok w.json) = .ok b!"[{\"a\":2},{\"a\":[5 6]}]" := by decide +kernel

/-- C60: two arrays with the same elements give the same for every path that does not
begin with a modifier, a multipath or `..`. -/
theorem C60_determined {v u : Value} (hv : Handed v) (hu : Handed u) 
    (kv : v.kind = .array) (ku : u.kind = .array) {vs us : List Value} (av : v.array = .ok vs) (au : u.array = .ok us)
    (h : Aligned SameValue vs us) {path : Bytes} (h1 : ∀ c ∈ path.head?, c ≠ c! '@' ∧ c ≠ c! '{' ∧ c ≠ c! '[')
    (h2 : ¬ b!".." <+: path) : SameRes (v.get path) (u.get path) := by
  obtain ⟨q, hq⟩ := hv.headed (hv.array_exists kv) kv
  obtain ⟨r, hr⟩ := hu.headed (hu.array_exists ku) ku
  rw [array_eq hq kv] at av; cases av
  rw [array_eq hr ku] at au; cases au
  refine (getIn_same hv.oneText path).trans (.trans ?_ (getIn_same hu.oneText path).symm)
  rw [hq, hr]
  refine get_first_same ?_
  obtain ⟨e, hm, hx⟩ := looksUp_of h1 h2
  rw [getFirst_eq, getFirst_eq, e]
  simp only [Bool.false_eq_true, if_false, hm, hx]
  exact gStart_listed h _ _ _ rfl rfl

/-- C60: and also for every multipath, when there is no `@` and no `..` in it. -/
theorem C60_determined_multi {v u : Value} (hv : Handed v) (hu : Handed u) 
    (kv : v.kind = .array) (ku : u.kind = .array) {vs us : List Value} (av : v.array = .ok vs) (au : u.array = .ok us)
    (h : Aligned SameValue vs us) {path : Bytes} (h1 : c! '@' ∉ path) (h2 : ¬ b!".." <:+: path) :
    SameRes (v.get path) (u.get path) := by
  obtain ⟨q, hq⟩ := hv.headed (hv.array_exists kv) kv
  obtain ⟨r, hr⟩ := hu.headed (hu.array_exists ku) ku
  rw [array_eq hq kv] at av; cases av
  rw [array_eq hr ku] at au; cases au
  refine (getIn_same hv.oneText path).trans (.trans ?_ (getIn_same hu.oneText path).symm)
  rw [hq, hr]
  exact get_listed h path h1 h2

example : Aligned SameValue (toks 1 b!"1,\"x\"]") (toks 1 b!" 1 :\"x\" {\"open") ∧
    ((parse b!"[1,\"x\"]" >>= fun v => v.get b!"{#,p:1,0}") >>= fun w => .ok w.json) = .ok b!"{\"_\":2,\"p\":\"x\",\"0\":1}" ∧
    ((parse b!"[ 1 :\"x\" {\"open" >>= fun v => v.get b!"{#,p:1,0}") >>= fun w => .ok w.json) = .ok b!"{\"_\":2,\"p\":\"x\",\"0\":1}" := by
  refine ⟨?_, by decide +kernel, by decide +kernel⟩
  have e1 : toks 1 b!"1,\"x\"]" = [tokVal 1 (leafTok b!"1").1, tokVal 3 (leafTok b!"\"x\"").1] := by decide +kernel
  have e2 : toks 1 b!" 1 :\"x\" {\"open" = [tokVal 2 (leafTok b!"1").1, tokVal 5 (leafTok b!"\"x\"").1] := by decide +kernel
  rw [e1, e2]
  exact .cons (tokVal_same _ _ _) (.cons (tokVal_same _ _ _) .nil)

/-- With a modifier the texts may show. -/
example : ((parse b!"[1,\"x\"]" >>= fun v => v.get b!"@this") >>= fun w => .ok w.json) = .ok b!"[1,\"x\"]" ∧
    ((parse b!"[ 1 :\"x\" {\"open" >>= fun v => v.get b!"@this") >>= fun w => .ok w.json) = .ok b!"[ 1 :\"x\" {\"open" := by decide +kernel

/-- C60: `..` before a path is the same as an opening bracket before the text. -/
theorem C60_lines (text : Bytes) {path : Bytes} (h1 : ∀ c ∈ path.head?, c ≠ c! '@' ∧ c ≠ c! '{' ∧ c ≠ c! '[')
    (h2 : ¬ b!".." <+: path) : SameRes (get text (b!".." ++ path)) (get (c! '[' :: text) path) := by
  obtain ⟨e, hm, hx⟩ := looksUp_of h1 h2
  refine get_first_same ?_
  have hlp : linesPrefix (b!".." ++ path) = (path, true) := rfl
  rw [getFirst_eq, getFirst_eq, e, hlp]
  simp only [Bool.false_eq_true, if_false, if_true, hm, hx]
  rw [gStart, if_neg (by decide), if_neg (by decide), if_pos rfl, gArr, gArr]
  refine gArrVals_alike _ (aligned_alike_prov ?_ (fun v hv => (eachToks_prov _ _ _ v hv).oneText) (fun v hv => (eachToks_prov _ _ _ v hv).oneText))
  unfold eachToks
  exact toks_same _ _ _

example : (get b!"{\"a\":1}\n{\"a\":2}\n\"open" b!"..#.a" >>= fun w => .ok w.json) = .ok b!"[1,2]" ∧
    (get b!"[{\"a\":1}\n{\"a\":2}\n\"open" b!"#.a" >>= fun w => .ok w.json) = .ok b!"[1,2]" := by decide +kernel

/-- The condition on the path is needed: after `..` a multipath is no multipath. -/
theorem C60_lines_needed : (get b!"1 2" b!"..[0,1]" >>= fun w => .ok w.exists) = .ok false ∧
    (get b!"[1 2" b!"[0,1]" >>= fun w => .ok w.json) = .ok b!"[1,2]" := by decide +kernel

end Gjson
