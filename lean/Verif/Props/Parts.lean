import Verif.Lemmas.CutUp
import Verif.Lemmas.Stable
/-
C64: how a path is cut after its first component, for every sequence of bytes.
-/
namespace Gjson
open Spec

/-- C64: every path is cut in one and only one of the ways of `CutUp`, and that is what
`Path::new` returns. -/
theorem C64_exact (path : Bytes) (p : Path) : Path.new path = .ok p ↔ CutUp path ⟨p.comp, p.esc, p.pat, p.sep, p.marg, p.extra⟩ := by
  constructor
  · intro h
    obtain ⟨q, hq⟩ := cutUp_total path
    have : pathNext path = .ok p := h
    rw [cutUp_eval hq] at this
    cases this
    exact hq
  · exact fun h => cutUp_eval h

/-- C64: there is exactly one way to cut a path. -/
theorem C64_one (path : Bytes) : ∃ q, CutUp path q ∧ ∀ q', CutUp path q' → q' = q := by
  obtain ⟨q, hq⟩ := cutUp_total path
  refine ⟨q, hq, fun q' hq' => ?_⟩
  have := (cutUp_eval hq').symm.trans (cutUp_eval hq)
  simp only [Except.ok.injEq, Spec.Parts.path, Path.mk.injEq] at this
  obtain ⟨h1, h2, h3, h4, h5, h6⟩ := this
  cases q; cases q'; simp_all

/-- C64: nothing is lost where a path is cut at a separator. -/
theorem C64_rejoin {path : Bytes} {q : Parts} (h : CutUp path q) (hs : q.sep ≠ 0) : path = q.comp ++ q.sep :: q.rest ∧ q.sep ∈ b!".|" := by
  have key : ∀ {t rest : Bytes} {sep : UInt8}, AfterComp t sep rest → sep ≠ 0 → t = sep :: rest ∧ sep ∈ b!".|" := by
    intro t rest sep ht h0
    cases ht with
    | nothing => exact absurd rfl h0
    | sep h => exact ⟨rfl, h⟩
  cases h with
  | key _ _ ht => obtain ⟨rfl, h⟩ := key ht hs; exact ⟨rfl, h⟩
  | count ht => obtain ⟨rfl, h⟩ := key ht hs; exact ⟨rfl, h⟩
  | query _ _ ht => obtain ⟨rfl, h⟩ := key ht hs; exact ⟨rfl, h⟩
  | multi _ _ ht => obtain ⟨rfl, h⟩ := key ht hs; exact ⟨rfl, h⟩
  | modifier _ ht => obtain ⟨rfl, h⟩ := key ht hs; exact ⟨rfl, h⟩
  | argument _ _ _ ht => obtain ⟨rfl, h⟩ := key ht hs; exact ⟨by simp, h⟩
  | argumentJson _ _ _ ht => obtain ⟨rfl, h⟩ := key ht hs; exact ⟨by simp, h⟩
  | _ => exact absurd rfl hs

theorem linesPrefix_none {path : Bytes} (h : ¬ b!".." <+: path) : linesPrefix path = (path, false) := by
  unfold linesPrefix
  split
  · rename_i a b rest
    rw [if_neg]
    rintro ⟨rfl, rfl⟩
    exact h ⟨rest, rfl⟩
  · rfl

/-- C64: what `get` finds depends on how the path is cut and on nothing else in it. -/
theorem C64_get {p p' : Bytes} {q : Parts} (h : CutUp p q) (h' : CutUp p' q) (text : Bytes) :
    (¬ b!".." <+: p → ¬ b!".." <+: p' → get text p = get text p') ∧ get text (b!".." ++ p) = get text (b!".." ++ p') := by
  have e : pathNext p = pathNext p' := (cutUp_eval h).trans (cutUp_eval h').symm
  constructor
  · intro h1 h2
    rw [get_eq, get_eq, getBody, getBody, getFirst, getFirst, linesPrefix_none h1, linesPrefix_none h2]
    simp only [Path.new, e]
  · have l : ∀ x : Bytes, linesPrefix (b!".." ++ x) = (x, true) := fun _ => rfl
    rw [get_eq, get_eq, getBody, getBody, getFirst, getFirst, l, l]
    simp only [Path.new, e]

/-- C64: what stands behind a multipath without a separator has no effect. -/
theorem C64_dropped {g r : Bytes} {d : UInt8} (hg : Bracketed g) (hh : ∀ c ∈ g.head?, c ∈ b!"[{") (hd : d ∉ b!".|") (text : Bytes) :
    get text (g ++ d :: r) = get text g := by
  have h2 : CutUp g ⟨g, false, false, 0, 0, []⟩ := by simpa using CutUp.multi hg hh .nothing
  have no : ∀ t, ¬ b!".." <+: g ++ t := by
    rintro t ⟨x, hx⟩
    obtain ⟨o, b, c, _, _, _, rfl⟩ := hg
    simp only [List.cons_append, List.nil_append, List.cons.injEq] at hx
    have := hh o rfl
    rw [← hx.1] at this
    exact absurd this (by decide)
  exact (C64_get (.multiMore (r := r) hg hh hd) h2 text).1 (no _) (by simpa using no [])

/-- C64: a `#` that starts neither a count nor a query makes the whole path count as empty. -/
theorem C64_malformed {p : Bytes} (h : CutUp (c! '#' :: p) ⟨[], false, false, 0, 0, []⟩) (text : Bytes) :
    get text (c! '#' :: p) = get text [] :=
  (C64_get h (.key (k := []) (t := []) .nil (by simp) .nothing) text).1 (by rintro ⟨x, hx⟩; cases hx) (by rintro ⟨x, hx⟩; cases hx)

/-- Each rule of `CutUp` at work. -/
example : CutUp b!"a\\.b*.c|d" ⟨b!"a\\.b*", true, true, c! '.', 0, b!"c|d"⟩ := (C64_exact _ ⟨_, _, _, _, _, _⟩).1 (by decide +kernel)
example : CutUp b!"a\\" ⟨b!"a\\", true, false, 0, 0, []⟩ := (C64_exact _ ⟨_, _, _, _, _, _⟩).1 (by decide +kernel)
example : CutUp b!"#.a" ⟨b!"#", false, false, c! '.', 0, b!"a"⟩ := (C64_exact _ ⟨_, _, _, _, _, _⟩).1 (by decide +kernel)
example : CutUp b!"#(a.b=\")\")#|0" ⟨b!"#(a.b=\")\")#", false, false, c! '|', 0, b!"0"⟩ := (C64_exact _ ⟨_, _, _, _, _, _⟩).1 (by decide +kernel)
example : CutUp b!"#(a=\"x)" ⟨b!"#(a=\"x)", false, false, 0, 0, []⟩ := (C64_exact _ ⟨_, _, _, _, _, _⟩).1 (by decide +kernel)
example : CutUp b!"#a.b" ⟨[], false, false, 0, 0, []⟩ := .badHash (by decide)
example : CutUp b!"#(a].b" ⟨[], false, false, 0, 0, []⟩ := (C64_exact _ ⟨_, _, _, _, _, _⟩).1 (by decide +kernel)
example : CutUp b!"#(a)x.b" ⟨[], false, false, 0, 0, []⟩ := (C64_exact _ ⟨_, _, _, _, _, _⟩).1 (by decide +kernel)
example : CutUp b!"#(a.b" ⟨[], false, false, 0, 0, []⟩ := (C64_exact _ ⟨_, _, _, _, _, _⟩).1 (by decide +kernel)
example : CutUp b!"{a.b,\"}\":c}.d" ⟨b!"{a.b,\"}\":c}", false, false, c! '.', 0, b!"d"⟩ := (C64_exact _ ⟨_, _, _, _, _, _⟩).1 (by decide +kernel)
example : CutUp b!"[a]b.c" ⟨b!"[a]", false, false, 0, 0, []⟩ := (C64_exact _ ⟨_, _, _, _, _, _⟩).1 (by decide +kernel)
example : CutUp b!"[a.b" ⟨b!"[a.b", false, false, 0, 0, []⟩ := (C64_exact _ ⟨_, _, _, _, _, _⟩).1 (by decide +kernel)
example : CutUp b!"@this|a" ⟨b!"@this", false, false, c! '|', 0, b!"a"⟩ := (C64_exact _ ⟨_, _, _, _, _, _⟩).1 (by decide +kernel)
example : CutUp b!"@m:x:y.a" ⟨b!"@m:x:y", false, false, c! '.', 2, b!"a"⟩ := (C64_exact _ ⟨_, _, _, _, _, _⟩).1 (by decide +kernel)
example : CutUp b!"@m:{\"a.b\":1}.c" ⟨b!"@m:{\"a.b\":1}", false, false, c! '.', 2, b!"c"⟩ := (C64_exact _ ⟨_, _, _, _, _, _⟩).1 (by decide +kernel)
example : CutUp b!"@m:[1]x.c" ⟨b!"@m:[1]x.c", false, false, 0, 2, b!"x.c"⟩ := (C64_exact _ ⟨_, _, _, _, _, _⟩).1 (by decide +kernel)
example : CutUp b!"@m:\"a.b" ⟨b!"@m:\"a.b", false, false, 0, 2, []⟩ := (C64_exact _ ⟨_, _, _, _, _, _⟩).1 (by decide +kernel)

/-- A malformed query is the empty path, and that finds the member with the empty key. -/
example : (get b!"{\"\":1}" b!"#x.y").toOption.map Value.json = some b!"1" := by decide +kernel

end Gjson
