import Verif.Lemmas.QueryCut
import Verif.Props.Parts
/-
C65: how a query is cut into left side, operator and right side, for every sequence of bytes.
-/
namespace Gjson
open Spec

/-- C65: `query_parts` returns the parts of `QueryCut` and nothing else, whatever the component is. -/
theorem C65_exact (p : Path) (lh op rh : Bytes) : p.queryParts = .ok (lh, op, rh) ↔ QueryCut p.comp lh op rh := by
  constructor
  · intro h
    obtain ⟨l, o, r, hq⟩ := queryCut_exists p.comp
    rw [queryCut_eval hq] at h
    cases h
    exact hq
  · exact fun h => queryCut_eval h

/-- C65: every component has exactly one set of parts. -/
theorem C65_one (k : Bytes) : ∃ lh op rh, QueryCut k lh op rh ∧ ∀ l o r, QueryCut k l o r → l = lh ∧ o = op ∧ r = rh := by
  obtain ⟨lh, op, rh, h⟩ := queryCut_exists k
  refine ⟨lh, op, rh, h, fun l o r h' => ?_⟩
  have e1 := queryCut_eval (p := ⟨k, false, false, 0, 0, []⟩) h
  have e2 := queryCut_eval (p := ⟨k, false, false, 0, 0, []⟩) h'
  rw [e1] at e2
  cases e2
  exact ⟨rfl, rfl, rfl⟩

/-- C65: the parts and the blanks around them are all there is between the parentheses. -/
theorem C65_rejoin {q h lh op rh : Bytes} (hq : QueryCut (b!"#(" ++ q ++ b!")" ++ h) lh op rh) (hh : h = [] ∨ h = b!"#") :
    ∃ w1 w2 o w3 w4, Blank w1 ∧ Blank w2 ∧ Blank w3 ∧ Blank w4 ∧ q = w1 ++ (lh ++ (w2 ++ (o ++ (w3 ++ (rh ++ w4))))) ∧
      op = (if o = b!"==" then b!"=" else o) ∧ o ∈ ([[], b!"=", b!"==", b!"!=", b!"<", b!"<=", b!">", b!">=", b!"%", b!"!%", b!"!"] : List Bytes) ∧
      (o = [] → rh = []) ∧ Trimmed lh ∧ Trimmed rh := by
  have hop : ∀ {d : Int} {s l o r : Bytes}, CutAtOp d s l o r →
      o ∈ ([[], b!"=", b!"==", b!"!=", b!"<", b!"<=", b!">", b!">=", b!"%", b!"!%", b!"!"] : List Bytes) := by
    intro d s l o r h
    induction h with
    | none => simp
    | backslash => simp
    | esc _ ih => exact ih
    | opened _ ih => exact ih
    | closed _ ih => exact ih
    | inside _ _ _ ih => exact ih
    | other _ _ _ ih => exact ih
    | op _ h =>
      cases h with
      | percent => simp
      | compareEq hc => simp only [List.mem_cons, List.not_mem_nil, or_false] at hc; rcases hc with rfl | rfl | rfl <;> simp
      | compare hc _ => simp only [List.mem_cons, List.not_mem_nil, or_false] at hc; rcases hc with rfl | rfl | rfl <;> simp
      | notTwo hd => simp only [List.mem_cons, List.not_mem_nil, or_false] at hd; rcases hd with rfl | rfl <;> simp
      | notOne => simp
  generalize hk : b!"#(" ++ q ++ b!")" ++ h = k at hq
  cases hq with
  | @query q' h' s l o r lh rh hh' hs hc hl hr =>
    have e : q = q' := by
      rcases hh with rfl | rfl <;> rcases hh' with rfl | rfl
      · simpa using hk
      · have := congrArg (fun x => x.reverse.head?) hk; simp at this
      · have := congrArg (fun x => x.reverse.head?) hk; simp at this
      · simpa using hk
    subst e
    obtain ⟨a1, a2, hs, b1, b2, _⟩ := hs
    obtain ⟨hsp, hnil⟩ := cutAtOp_split hc
    have hrn : o = [] → rh = [] := fun ho => by
      have := trimOf_trim hr
      rw [hnil ho] at this
      exact this.symm
    obtain ⟨a3, a4, hl, b3, b4, t1⟩ := hl
    obtain ⟨a5, a6, hr, b5, b6, t2⟩ := hr
    refine ⟨a1 ++ a3, a4, o, a5, a6 ++ a2, ?_, b4, b5, ?_, ?_, rfl, hop hc, hrn, t1, t2⟩
    · exact fun x hx => (List.mem_append.1 hx).elim (b1 x) (b3 x)
    · exact fun x hx => (List.mem_append.1 hx).elim (b6 x) (b2 x)
    · rw [hs, hsp, hl, hr]; simp
  | none hn =>
    rcases hh with rfl | rfl
    · exact absurd (by rw [← hk]; simp) (hn q).1
    · exact absurd (by rw [← hk]; simp) (hn q).2

/-- C65: on every text but an object, a query finds what its parts say, however they are
written: with the same parts and the same rest of the path the result is the same. -/
theorem C65_get {p p' a b h rest lh op rh : Bytes} {e w e' w' : Bool} {m m' : Nat} {sep : UInt8}
    (hp : CutUp p ⟨b!"#(" ++ a ++ b!")" ++ h, e, w, sep, m, rest⟩) (hp' : CutUp p' ⟨b!"#(" ++ b ++ b!")" ++ h, e', w', sep, m', rest⟩)
    (ha : QueryCut (b!"#(" ++ a ++ b!")" ++ h) lh op rh) (hb : QueryCut (b!"#(" ++ b ++ b!")" ++ h) lh op rh) (text : Bytes) :
    get text (b!".." ++ p) = get text (b!".." ++ p') ∧
      (¬ b!".." <+: p → ¬ b!".." <+: p' → (∀ w r, Blank w → text ≠ w ++ c! '{' :: r) → get text p = get text p') := by
  have n1 : pNext p = ⟨b!"#(" ++ a ++ b!")" ++ h, e, w, sep, m, rest⟩ := Except.ok.inj ((pathNext_eq p).symm.trans (cutUp_eval hp))
  have n2 : pNext p' = ⟨b!"#(" ++ b ++ b!")" ++ h, e', w', sep, m', rest⟩ := Except.ok.inj ((pathNext_eq p').symm.trans (cutUp_eval hp'))
  have hparts : pParts (pNext p) = pParts (pNext p') := by
    rw [queryCut_pParts (p := pNext p) (by rw [n1]; exact ha), queryCut_pParts (p := pNext p') (by rw [n2]; exact hb)]
  have c1 : (pNext p).comp = b!"#(" ++ a ++ b!")" ++ h := by rw [n1]
  have c2 : (pNext p').comp = b!"#(" ++ b ++ b!")" ++ h := by rw [n2]
  have hs : (pNext p).sep = (pNext p').sep := by rw [n1, n2]
  have he : (pNext p).extra = (pNext p').extra := by rw [n1, n2]
  constructor
  · have l : ∀ x : Bytes, linesPrefix (b!".." ++ x) = (x, true) := fun _ => rfl
    have key : ∀ x : Bytes, get text (b!".." ++ x) = (gArr get text.length true (pNext x) text >>= finish) := by
      intro x
      rw [get_eq, getBody, getFirst_eq, l]
      simp only [if_true]
      cases gArr get text.length true (pNext x) text <;> rfl
    rw [key, key]
    exact relRes_finish (gArrVals_query c1 c2 hs he hparts _)
  · intro h1 h2 hn
    rw [get_start (linesPrefix_none h1) (by rw [n1]; exact ⟨rfl, rfl⟩), get_start (linesPrefix_none h2) (by rw [n2]; exact ⟨rfl, rfl⟩)]
    exact relRes_finish (gStart_query c1 c2 hs he hparts _ _ hn)

/-- Each rule at work. -/
example : QueryCut b!"#(a.b == \"x=y\" )#" b!"a.b" b!"=" b!"\"x=y\"" := (C65_exact ⟨_, false, false, 0, 0, []⟩ _ _ _).1 (by decide +kernel)
example : QueryCut b!"#(#(a=1)>=2)" b!"#(a=1)" b!">=" b!"2" := (C65_exact ⟨_, false, false, 0, 0, []⟩ _ _ _).1 (by decide +kernel)
example : QueryCut b!"#(a\\=b!%c*)" b!"a\\=b" b!"!%" b!"c*" := (C65_exact ⟨_, false, false, 0, 0, []⟩ _ _ _).1 (by decide +kernel)
example : QueryCut b!"#( a )" b!"a" [] [] := (C65_exact ⟨_, false, false, 0, 0, []⟩ _ _ _).1 (by decide +kernel)
example : QueryCut b!"#(a!b)" b!"a" b!"!" b!"b" := (C65_exact ⟨_, false, false, 0, 0, []⟩ _ _ _).1 (by decide +kernel)
example : QueryCut b!"#(a%=b)" b!"a" b!"%" b!"=b" := (C65_exact ⟨_, false, false, 0, 0, []⟩ _ _ _).1 (by decide +kernel)
example : QueryCut b!"#(a\\)" b!"a\\" [] [] := (C65_exact ⟨_, false, false, 0, 0, []⟩ _ _ _).1 (by decide +kernel)
example : QueryCut b!"#(a)b=1)" b!"a)b" b!"=" b!"1" := (C65_exact ⟨_, false, false, 0, 0, []⟩ _ _ _).1 (by decide +kernel)
example : QueryCut b!"#(a=1" [] [] [] := (C65_exact ⟨_, false, false, 0, 0, []⟩ _ _ _).1 (by decide +kernel)

/-- An operator inside quotes is an operator. -/
example : QueryCut b!"#(\"a=b\"=1)" b!"\"a" b!"=" b!"b\"=1" := (C65_exact ⟨_, false, false, 0, 0, []⟩ _ _ _).1 (by decide +kernel)

/-- `#(a == 1 ).b` and `#(a=1).b` find the same, except in an object that has such keys. -/
example (text : Bytes) (h : ∀ w r, Blank w → text ≠ w ++ c! '{' :: r) : get text b!"#(a == 1 ).b" = get text b!"#(a=1).b" :=
  (C65_get (a := b!"a == 1 ") (b := b!"a=1") (h := [])
    ((C64_exact b!"#(a == 1 ).b" ⟨b!"#(a == 1 )", false, false, c! '.', 0, b!"b"⟩).1 (by decide +kernel))
    ((C64_exact b!"#(a=1).b" ⟨b!"#(a=1)", false, false, c! '.', 0, b!"b"⟩).1 (by decide +kernel))
    (lh := b!"a") (op := b!"=") (rh := b!"1")
    ((C65_exact ⟨_, false, false, 0, 0, []⟩ _ _ _).1 (by decide +kernel))
    ((C65_exact ⟨_, false, false, 0, 0, []⟩ _ _ _).1 (by decide +kernel)) text).2 (by decide) (by decide) h
example : (get b!"[{\"a\":1,\"b\":2}]" b!"#(a == 1 ).b").toOption.map Value.json = some b!"2" := by decide +kernel
example : (get b!"{\"#(a=1)\":5}" b!"#(a=1)").toOption.map Value.json = some b!"5" ∧
    (get b!"{\"#(a=1)\":5}" b!"#(a==1)").toOption.map Value.json = some [] := by decide +kernel

end Gjson
