import Verif.Lemmas.Entries
import Verif.Lemmas.Mod
import Verif.Lemmas.Seek
/-
Modifiers and multipaths with paths of any kind.
-/
namespace Gjson
open Spec

theorem lines_none {path : Bytes} {P : Parts} (hc : CutUp path P) (hk : Computes P.comp) : linesPrefix path = (path, false) := by
  obtain ⟨c, h1, h2⟩ := hk
  obtain ⟨t, rfl⟩ := (cutUp_comp hc).1
  cases hp : P.comp with
  | nil => rw [hp] at h1; cases h1
  | cons d r =>
    rw [hp] at h1
    simp only [List.head?_cons, Option.mem_some_iff] at h1
    subst h1
    rw [List.cons_append]
    unfold linesPrefix
    cases r ++ t with
    | nil => rfl
    | cons e q =>
      simp only
      rw [if_neg (by rintro ⟨rfl, _⟩; revert h2; decide)]

theorem get_computes {path : Bytes} {P : Parts} (hc : CutUp path P) (hk : Computes P.comp) (doc : Bytes) :
    get doc path = ((if P.comp.head? = some (c! '@') then modExec get doc P.path else multiExec get doc P.path) >>= finish) := by
  rw [get_eq, getBody, getFirst_eq, lines_none hc hk]
  simp only [Bool.false_eq_true, if_false]
  rw [cut_next hc]
  have e : P.path.comp = P.comp := rfl
  obtain ⟨c, h1, h2⟩ := hk
  unfold Path.isModifier Path.isMultipath
  rw [e]
  cases hp : P.comp with
  | nil => rw [hp] at h1; cases h1
  | cons d r =>
    rw [hp] at h1
    simp only [List.head?_cons, Option.mem_some_iff] at h1
    subst h1
    simp only [List.mem_cons, List.not_mem_nil, or_false] at h2
    simp only [List.head?_cons, Option.some.injEq]
    rcases h2 with rfl | rfl | rfl <;> rfl

/-! ### Modifiers -/

theorem intoOwned_oneText (v : Value) : OneText (jsonIntoOwned v) := by
  unfold jsonIntoOwned; exact .inl rfl

theorem call_exec {P : Parts} {n a : Bytes} (h : CallOf P.comp P.arg n a) (rec : GetFn) (doc : Bytes) :
    modExec rec doc P.path = (modApply rec n doc a >>= fun out => .ok (jsonIntoOwned (pParse 0 out), P.path)) := by
  obtain ⟨k, e, w, sep, m, rest⟩ := P
  simp only at h
  unfold modExec
  cases h with
  | bare =>
    have h1 : sliceFrom (c! '@' :: n) 1 = .ok n := (At.zero (c! '@' :: n)).cons.sliceFrom
    simp only [Spec.Parts.path, if_true, h1, ok_bind, parse_eq]
  | arg =>
    have h0 := (At.zero (c! '@' :: (n ++ c! ':' :: a))).cons
    have h1 : slice (c! '@' :: (n ++ c! ':' :: a)) 1 (n.length + 1) = .ok n := h0.slice' (by omega)
    have h2 : sliceFrom (c! '@' :: (n ++ c! ':' :: a)) (n.length + 1 + 1) = .ok a := by
      have := h0.append.cons.sliceFrom
      rwa [show 0 + 1 + n.length + 1 = n.length + 1 + 1 by omega] at this
    simp only [Spec.Parts.path, h1, h2, ok_bind, parse_eq]
    rw [if_neg (by omega)]

theorem call_head {k n a : Bytes} {m : Nat} (h : CallOf k m n a) : k.head? = some (c! '@') := by
  cases h <;> rfl

theorem get_call {path : Bytes} {P : Parts} {n a : Bytes} (hc : CutUp path P) (h : CallOf P.comp P.arg n a) (doc : Bytes) :
    get doc path = (modApply get n doc a >>= fun out => goOn (jsonIntoOwned (pParse 0 out)) P.sep P.rest) := by
  have hh := call_head h
  rw [get_computes hc ⟨_, hh, by decide⟩, if_pos hh, call_exec h]
  cases modApply get n doc a with
  | error e => rfl
  | ok out =>
    simp only [ok_bind]
    exact finish_goOn _ _

/-- Every component that begins with `@` is a call. -/
theorem call_of {path : Bytes} {P : Parts} (hc : CutUp path P) (hh : P.comp.head? = some (c! '@')) : ∃ n a, CallOf P.comp P.arg n a := by
  cases hc with
  | key _ hk => exact absurd (hk _ hh) (by decide)
  | @keyBackslash k _ _ _ hk =>
    cases k with
    | nil => simp at hh
    | cons c k => exact absurd (hk _ hh) (by decide)
  | count => simp at hh
  | query => simp at hh
  | queryOpen => simp at hh
  | badHash => simp at hh
  | badClose => simp at hh
  | badAfter => simp at hh
  | badOpen => simp at hh
  | multi _ hk => exact absurd (hk _ hh) (by decide)
  | multiMore _ hk => exact absurd (hk _ hh) (by decide)
  | multiOpen ho => simp only [List.head?_cons, Option.some.injEq] at hh; subst hh; exact absurd ho (by decide)
  | modifier => exact ⟨_, _, .bare⟩
  | modifierBackslash => exact ⟨_, _, .bare⟩
  | argument => exact ⟨_, _, .arg⟩
  | argumentJson => exact ⟨_, _, .arg⟩
  | argumentMore => exact ⟨_, _, .arg⟩
  | argumentOpen => exact ⟨_, _, .arg⟩

theorem call_one {k n a n' a' : Bytes} {m : Nat} (h : CallOf k m n a) (h' : CallOf k m n' a') : n = n' ∧ a = a' := by
  cases h with
  | bare =>
    generalize hm : 0 = m at h'
    cases h' with
    | bare => exact ⟨rfl, rfl⟩
    | arg => omega
  | arg =>
    generalize hk : c! '@' :: (n ++ c! ':' :: a) = k at h'
    generalize hm : n.length + 1 = m at h'
    cases h' with
    | bare => omega
    | arg =>
      have := List.append_inj (List.cons.inj hk).2 (by omega)
      exact ⟨this.1, (List.cons.inj this.2).2⟩

/-! ### Multipaths -/

theorem multi_arr {s : Bytes} {es : List (Bytes × Bytes)} (h : EntriesOf s es) (rec : GetFn) (json : Bytes) {p : Path}
    (hp : p.comp = c! '[' :: (s ++ b!"]")) :
    multiExec rec json p = ((es.map (·.2)).mapM (rec json) >>= fun rs => .ok (multiArray rs, p)) := by
  unfold multiExec execArr
  rw [hp, (At.zero _).idx]
  simp only [ok_bind]
  rw [if_pos trivial, unclosed_last, each_inner _ h]
  simp only [ok_bind, Bool.false_eq_true, if_false]
  have := push_paths (rec json) es []
  simp only [existing, List.filter_nil, List.map_nil, joinComma, List.length_nil, List.nil_append] at this
  rw [this]
  cases (es.map (·.2)).mapM (rec json) with
  | error e => rfl
  | ok l => simp only [ok_bind, jsonFromOwned_eq, multiArray, arrayText, existing, joinComma_eq, List.cons_append]

theorem multi_obj {s : Bytes} {es : List (Bytes × Bytes)} (h : EntriesOf s es) (rec : GetFn) (json : Bytes) {p : Path}
    (hp : p.comp = c! '{' :: (s ++ b!"}")) :
    multiExec rec json p = ((es.map (·.2)).mapM (rec json) >>= fun rs => .ok (multiObject (es.map (·.1)) rs, p)) := by
  unfold multiExec execObj
  rw [hp, (At.zero _).idx]
  simp only [ok_bind]
  rw [if_neg (by decide), unclosed_last, each_inner _ h]
  simp only [ok_bind, Bool.false_eq_true, if_false]
  have := push_members (rec json) es []
  simp only [members, List.filter_nil, List.map_nil, joinComma, List.length_nil, List.nil_append] at this
  rw [this]
  cases (es.map (·.2)).mapM (rec json) with
  | error e => rfl
  | ok l =>
    simp only [ok_bind, jsonFromOwned_eq, multiObject, objectText, members, joinComma_eq, List.cons_append]
    rfl

theorem get_arr {path s : Bytes} {P : Parts} {es : List (Bytes × Bytes)} (hc : CutUp path P) (hk : P.comp = c! '[' :: (s ++ b!"]"))
    (h : EntriesOf s es) (doc : Bytes) :
    get doc path = ((es.map (·.2)).mapM (get doc) >>= fun rs => goOn (multiArray rs) P.sep P.rest) := by
  rw [get_computes hc ⟨_, by rw [hk]; rfl, by decide⟩, if_neg (by rw [hk]; simp), multi_arr h get doc (p := P.path) hk]
  cases (es.map (·.2)).mapM (get doc) with
  | error e => rfl
  | ok rs =>
    simp only [ok_bind]
    exact finish_goOn _ _

theorem get_obj {path s : Bytes} {P : Parts} {es : List (Bytes × Bytes)} (hc : CutUp path P) (hk : P.comp = c! '{' :: (s ++ b!"}"))
    (h : EntriesOf s es) (doc : Bytes) :
    get doc path = ((es.map (·.2)).mapM (get doc) >>= fun rs => goOn (multiObject (es.map (·.1)) rs) P.sep P.rest) := by
  rw [get_computes hc ⟨_, by rw [hk]; rfl, by decide⟩, if_neg (by rw [hk]; simp), multi_obj h get doc (p := P.path) hk]
  cases (es.map (·.2)).mapM (get doc) with
  | error e => rfl
  | ok rs =>
    simp only [ok_bind]
    exact finish_goOn _ _

theorem unclosed_other {k : Bytes} {c : UInt8} (hk : k ≠ []) (hl : k.getLast? ≠ some c) : unclosed k c = .ok true := by
  unfold unclosed
  rw [if_neg (by simpa using hk)]
  obtain ⟨s, d, rfl⟩ : ∃ s d, k = s ++ [d] := ⟨k.dropLast, k.getLast hk, (List.dropLast_concat_getLast hk).symm⟩
  have : idx (s ++ [d]) ((s ++ [d]).length - 1) = .ok d := by
    have := (At.of_pre s [d]).idx
    simpa using this
  rw [this]
  simp only [ok_bind]
  rw [List.getLast?_append, List.getLast?_singleton] at hl
  simp only [Option.some_or, ne_eq, Option.some.injEq] at hl
  simp [hl]

theorem get_wrong {path : Bytes} {P : Parts} (hc : CutUp path P) (doc : Bytes)
    (hk : P.comp.head? = some (c! '[') ∧ P.comp.getLast? ≠ some (c! ']') ∨ P.comp.head? = some (c! '{') ∧ P.comp.getLast? ≠ some (c! '}')) :
    get doc path = .ok Value.default := by
  have e : P.path.comp = P.comp := rfl
  rcases hk with ⟨h1, h2⟩ | ⟨h1, h2⟩
  · have hne : P.comp ≠ [] := by rintro h; rw [h] at h1; cases h1
    obtain ⟨t, ht⟩ : ∃ t, P.comp = c! '[' :: t := by
      cases hp : P.comp with
      | nil => exact absurd hp hne
      | cons d t => rw [hp] at h1; exact ⟨t, by rw [Option.some.inj h1]⟩
    rw [get_computes hc ⟨_, h1, by decide⟩, if_neg (by rw [h1]; decide)]
    have h0 : idx P.comp 0 = .ok (c! '[') := by rw [ht]; rfl
    unfold multiExec execArr
    rw [e, h0]
    simp only [ok_bind]
    rw [if_pos trivial, unclosed_other hne h2]
    rfl
  · have hne : P.comp ≠ [] := by rintro h; rw [h] at h1; cases h1
    obtain ⟨t, ht⟩ : ∃ t, P.comp = c! '{' :: t := by
      cases hp : P.comp with
      | nil => exact absurd hp hne
      | cons d t => rw [hp] at h1; exact ⟨t, by rw [Option.some.inj h1]⟩
    rw [get_computes hc ⟨_, h1, by decide⟩, if_neg (by rw [h1]; decide)]
    have h0 : idx P.comp 0 = .ok (c! '{') := by rw [ht]; rfl
    unfold multiExec execObj
    rw [e, h0]
    simp only [ok_bind]
    rw [if_neg (by decide), unclosed_other hne h2]
    rfl

end Gjson
