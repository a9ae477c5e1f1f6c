import Verif.Lemmas.Depth
import Verif.Lemmas.Room
import Verif.Props.Total
import Verif.Props.Valid
/-
C52: how deep the calls of `valid`, `pretty` and `@flatten` nest.
C55: how deep the calls of `get` nest.
-/
namespace Gjson
open Spec

/-- C52: on a JSON text `valid` nests its calls exactly as deep as values of the text lie
one inside the other: with room for as many calls it accepts the text, with less room the
room does not suffice. -/
theorem C52_valid_exact {t v : Bytes} {d : Doc} (hv : Denotes v d) (hp : Padded v t) (n : Nat) :
    (d.levels ≤ n → validWithin n t = .ok true) ∧ (n < d.levels → validWithin n t = .error .fuel) := by
  obtain ⟨w1, w2, h1, h2, rfl⟩ := hp
  have := validAny_ends (json := w1 ++ (v ++ w2)) hv (n := n) (At.zero _) h1 (Follow.ws' h2)
  unfold validWithin
  rcases this with ⟨hn, j, h3, h4⟩ | ⟨hn, h3⟩
  · refine ⟨fun _ => ?_, fun h => by omega⟩
    rw [h3]
    simp only [ok_bind, Bool.not_true, Bool.false_eq_true, if_false]
    rw [validTrail_at _ _ _ h4 (by have := h4.len; omega), pWs_eq_nil.2 h2]
    rfl
  · refine ⟨fun h => by omega, fun _ => ?_⟩
    rw [h3]
    rfl

/-- C52: on any text `valid` nests its calls at most one deeper than the text has opening
brackets and braces. -/
theorem C52_valid_any_text (json : Bytes) {n : Nat} (hn : opens json < n) :
    validWithin n json = valid json ∧ validWithin n json ≠ .error .fuel := by
  have h1 : Above (validWithin (opens json + 1) json) (validWithin n json) := by
    unfold validWithin
    exact .bind (validAny_above (by omega) 0) fun _ => .refl _
  have h2 : Above (validWithin (opens json + 1) json) (valid json) := by
    have hle : opens json + 1 ≤ json.length + 1 := by
      have := List.countP_le_length (p := fun c => decide (c = c! '[' ∨ c = c! '{')) (l := json)
      unfold opens
      omega
    unfold validWithin valid
    exact .bind (validAny_above hle 0) fun _ => .refl _
  have h3 : validWithin (opens json + 1) json ≠ outOfFuel := by
    unfold validWithin
    rcases validAny_stays (json := json) (opens json + 1) 0 json (At.zero _) (by omega) with ⟨j, h⟩ | ⟨j, r, h, hat, _⟩
    · rw [h]
      simp [outOfFuel]
    · rw [h]
      simp only [ok_bind, Bool.not_true, Bool.false_eq_true, if_false]
      rw [validTrail_at _ _ _ hat (by have := hat.len; omega)]
      simp [outOfFuel]
  rw [h1.resolve_left h3, h2.resolve_left h3]
  exact ⟨rfl, h3⟩

/-- C52: no room of fixed size suffices for `valid`: texts of twice as many bytes go
deeper. -/
theorem C52_valid_unbounded (n : Nat) : ∃ t : Bytes, t.length = 2 * (n + 1) ∧ valid t = .ok true ∧ validWithin n t = .error .fuel := by
  have key : ∀ n, ∃ (t : Bytes) (d : Doc), t.length = 2 * (n + 1) ∧ Denotes t d ∧ d.levels = n + 1 := by
    intro n
    induction n with
    | zero => exact ⟨b!"[]", .arr [], by decide, .arrEmpty (w := []) ws_nil, by simp [Doc.levels, elemLevels]⟩
    | succ n ih =>
      obtain ⟨t, d, h1, h2, h3⟩ := ih
      refine ⟨c! '[' :: (t ++ [c! ']']), .arr [d], by simp; omega, ?_, by simp [Doc.levels, elemLevels, h3]⟩
      have := Denotes.arr (es := [(⟨[], t, []⟩, d)]) (by simp) (by simp [Elem.Wf, Ws]) (by simpa using h2)
      simpa [elemsText, Elem.text] using this
  obtain ⟨t, d, h1, h2, h3⟩ := key n
  refine ⟨t, h1, (C01_valid_iff_rfc8259 _).2 ⟨[], t, [], by simp, ws_nil, ws_nil, value_of_denotes h2⟩, ?_⟩
  exact (C52_valid_exact h2 ⟨[], [], ws_nil, ws_nil, by simp⟩ n).2 (by omega)

/-- A text in which four values lie one inside the other. -/
example : (validWithin 3 b!"{\"a\":[1,[true]]}" = .error .fuel ∧ validWithin 4 b!"{\"a\":[1,[true]]}" = .ok true) ∧
    opens b!"{\"a\":[1,[true]]}" = 3 := by decide +kernel

/-- A text that is not JSON: nothing after the first element is read. -/
example : validWithin 2 b!"[x[[[[[" = .ok false ∧ validWithin 6 b!"[x[[[[[" = valid b!"[x[[[[[" ∧ opens b!"[x[[[[[" = 6 := by decide +kernel

/-- C52: `pretty` never nests its calls deeper than 500, for every text and all options. -/
theorem C52_pretty_limit (json : Bytes) (o : PrettyOptions) {n : Nat} (hn : 500 ≤ n) :
    prettyWithin n json o = prettyOptions json o ∧ prettyWithin n json o ≠ .error .fuel := by
  obtain ⟨b, h⟩ := prettyOptions_ok json o
  rw [prettyWithin_eq json o hn, h]
  simp

/-- C52: and below that limit every further bracket takes it one call deeper. -/
theorem C52_pretty_exact {n : Nat} (hn : n < 500) (o : PrettyOptions) (hw : o.width = 0) (r : Bytes) :
    prettyWithin n (List.replicate (n + 1) c! '[' ++ r) o = .error .fuel := by
  have : List.replicate (n + 1) c! '[' ++ r = List.replicate n c! '[' ++ c! '[' :: r := by
    rw [List.replicate_succ', List.append_assoc]
    rfl
  rw [this]
  unfold prettyWithin
  simp only
  rw [prettyAny_brackets (a := ⟨true, o.width, o.pfx, o.indent, o.sortKeys⟩) hw (At.zero _) (by unfold MAX_DEPTH; omega)]
  rfl

/-- C52: on a JSON array `@flatten` with `deep` nests its calls exactly as deep as arrays lie
directly one inside the other. -/
theorem C52_flatten_exact {t v arg : Bytes} {es : List Doc} (hv : Denotes v (.arr es)) (hp : Padded v t) {o : Value}
    (ho : get arg b!"deep" = .ok o) (hb : o.bool = .ok true) (n : Nat) :
    ((Doc.arr es).arrays ≤ n → flattenWithin n t arg = modFlatten get t arg ∧ flattenWithin n t arg ≠ .error .fuel) ∧
      (n < (Doc.arr es).arrays → flattenWithin n t arg = .error .fuel) := by
  unfold flattenWithin modFlatten
  rcases flatten_lasts ho hb n hv hp with ⟨h1, r, h2⟩ | ⟨h1, h2⟩
  · refine ⟨fun _ => ?_, fun h => by omega⟩
    by_cases hle : n ≤ t.length + 1
    · have := flattenN_above (rec := get) (arg := arg) (json := t) hle
      rw [h2] at this ⊢
      exact ⟨(this.resolve_left (by simp [outOfFuel])).symm, by simp⟩
    · have := flattenN_above (rec := get) (arg := arg) (json := t) (show t.length + 1 ≤ n by omega)
      obtain ⟨r, h3⟩ := modFlattenN_ok arg (t.length + 1) t (by omega)
      rw [h3] at this ⊢
      have h4 := this.resolve_left (by simp [outOfFuel])
      exact ⟨h4, by rw [h4]; simp⟩
  · exact ⟨fun h => absurd h h1, fun _ => h2⟩

/-- Three arrays one inside the other; the array within the object does not count. -/
example : flattenWithin 2 b!"[1,[2,[{\"a\":[[[]]]}]]]" b!"{\"deep\":true}" = .error .fuel ∧
    flattenWithin 3 b!"[1,[2,[{\"a\":[[[]]]}]]]" b!"{\"deep\":true}" = .ok b!"[1,2,{\"a\":[[[]]]}]" := by decide +kernel

/-- C55: the calls of `get` and `get_obj` nest at most two deeper than the path is long,
whatever the text: with room for that many it does not run out, and the result is that of
`get`. -/
theorem C55_path_bound (json path : Bytes) {n : Nat} (hn : path.length + 2 ≤ n) :
    getWithin n json path = get json path ∧ getWithin n json path ≠ .error .fuel := by
  rw [getWithin_eq n json path hn]
  exact ⟨rfl, C03_get_terminates json path⟩

/-- C55: a limit on the nesting is exceeded or makes no difference. -/
theorem C55_limit (json path : Bytes) (n : Nat) : getWithin n json path = .error .fuel ∨ getWithin n json path = get json path :=
  getWithin_above n json path

/-- C55: the bound is attained for every length of the path: on `{"":{"":…{}…}}` a path of
pipes takes two calls more than it is long. -/
theorem C55_attained (m : Nat) : (List.replicate m c! '|').length = m ∧ valid (unnamed m) = .ok true ∧
    getWithin (m + 1) (unnamed m) (List.replicate m c! '|') = .error .fuel ∧
    getWithin (m + 2) (unnamed m) (List.replicate m c! '|') = get (unnamed m) (List.replicate m c! '|') := by
  refine ⟨by simp, ?_, getWithin_pipes m, getWithin_eq _ _ _ (by simp)⟩
  exact (C01_valid_iff_rfc8259 _).2 ⟨[], unnamed m, [], by simp, ws_nil, ws_nil, unnamed_value m⟩

/-- C55: a path that is cut off by the limit on one text may not need it on another: the
empty path on a text without a brace takes one call. -/
example : getWithin 1 b!"[1]" b!"" = get b!"[1]" b!"" ∧ getWithin 1 b!"{}" b!"" = .error .fuel := by
  constructor <;> decide +kernel

/-- A query and a multipath: `get`, `get_obj` for `a`, and for an element `get` with the
multipath, `get` with `b.c` and twice `get_obj`. -/
example : getWithin 6 b!"{\"a\":[{\"b\":{\"c\":1}}]}" b!"a.#(b.c>0)#.[b.c,b]" = get b!"{\"a\":[{\"b\":{\"c\":1}}]}" b!"a.#(b.c>0)#.[b.c,b]" ∧
    getWithin 5 b!"{\"a\":[{\"b\":{\"c\":1}}]}" b!"a.#(b.c>0)#.[b.c,b]" = .error .fuel := by
  constructor <;> decide +kernel

end Gjson
