import Verif.Lemmas.Work
import Verif.Props.Valid
/-
C54: how often a search looks into objects and arrays.
-/
namespace Gjson
open Spec

/-- What is counted is what runs: without the number, `objCount` is `getObj`. -/
theorem C54_same_results (rec : GetFn) (json : Bytes) (d i : Nat) (path : Path) :
    (do .ok (← objCount rec json d i path).1) = getObj rec json d i path := objCount_result rec json d i path

/-- C54: for every text and path, a search makes at most as many calls of `get_obj` and
`get_arr` as there are ways to choose, from all but one of the opening brackets and braces
of the text, at most as many as the path has dots. -/
theorem C54_calls_bound {json path : Bytes} {n : Nat} (h : searchCalls json path = .ok n) :
    n ≤ choices (opens json - 1) (dots path) := by
  unfold searchCalls Path.new at h
  simp only [pathNext_eq, ok_bind] at h
  split at h
  · cases h; exact choices_pos _ _
  split at h
  · cases h; exact Nat.zero_le _
  · refine Nat.le_trans (startCount_bound _ _ json _ (At.zero _) h) (choices_mono_right _ ?_)
    exact Nat.le_trans (divesLeft_next _) (List.Sublist.countP_le (linesPrefix_suffix path).sublist)

/-- C54: the number exists whenever `get` has a result. -/
theorem C54_counted {json path : Bytes} {v : Value} (h : get json path = .ok v) : ∃ n, searchCalls json path = .ok n := by
  rw [get_eq] at h
  unfold getBody at h
  obtain ⟨x, hx, _⟩ := bind_eq_ok.1 h
  unfold getFirst at hx
  unfold searchCalls
  unfold Path.new at hx ⊢
  simp only [pathNext_eq, ok_bind] at hx ⊢
  split
  · exact ⟨_, rfl⟩
  rename_i hl
  rw [if_neg hl] at hx
  split
  · exact ⟨_, rfl⟩
  rename_i hm
  rw [if_neg (fun h => hm (.inl h)), if_neg (fun h => hm (.inr h))] at hx
  exact startCount_total _ _ json (At.zero _) (by omega) ⟨_, hx⟩

/-- C54: for a fixed path that is a polynomial whose degree is the number of dots. -/
theorem C54_polynomial {json path : Bytes} {n : Nat} (h : searchCalls json path = .ok n) : n ≤ (opens json + 1) ^ dots path :=
  Nat.le_trans (C54_calls_bound h) (Nat.le_trans (choices_le_poly _ _) (Nat.pow_le_pow_left (by omega) _))

/-- C54: a path without dots takes at most one call. -/
theorem C54_one_component {json path : Bytes} {n : Nat} (h : searchCalls json path = .ok n) (hd : dots path = 0) : n ≤ 1 := by
  have := C54_polynomial h
  rw [hd] at this
  simpa using this

theorem opens_nest : ∀ m, opens (nest m) = m + 1
  | 0 => rfl
  | m + 1 => by
    have : opens (nest (m + 1)) = opens b!"{\"a\":" + opens (nest m) + opens b!"}" := by
      unfold opens; rw [nest, List.countP_append, List.countP_append]
    rw [this, opens_nest m]
    have h1 : opens b!"{\"a\":" = 1 := by decide
    have h2 : opens b!"}" = 0 := by decide
    omega

theorem dots_chain : ∀ k, dots (chain k) = k
  | 0 => rfl
  | k + 1 => by
    have : dots (chain (k + 1)) = dots b!"a." + dots (chain k) := by
      unfold dots; rw [chain, List.countP_append]
    rw [this, dots_chain k]
    have h1 : dots b!"a." = 1 := by decide
    omega

/-- C54: the bound is attained, for every number of braces and of dots. -/
theorem C54_attained (m k : Nat) : opens (nest m) = m + 1 ∧ dots (chain k) = k ∧
    searchCalls (nest m) (chain k) = .ok (choices (opens (nest m) - 1) (dots (chain k))) := by
  rw [opens_nest, dots_chain]
  exact ⟨rfl, rfl, searchCalls_nest m k⟩

theorem nest_length : ∀ m, (nest m).length = 6 * m + 2
  | 0 => rfl
  | m + 1 => by rw [nest]; simp [nest_length m]; omega

/-- C54: the search can take exponential time: on the JSON text `{"a":{"a":…{}…}}` the path
`a.a.….a.b`, a third as long, takes `2 ^ m` calls, to find nothing. -/
theorem C54_exponential (m : Nat) : valid (nest m) = .ok true ∧ (nest m).length = 6 * m + 2 ∧ (chain m).length = 2 * m + 1 ∧
    searchCalls (nest m) (chain m) = .ok (2 ^ m) ∧ get (nest m) (chain m) = .ok Value.default := by
  refine ⟨?_, nest_length m, chain_length m, ?_, get_nest m m⟩
  · obtain ⟨d, hd⟩ := nest_denotes m
    exact (C01_valid_iff_rfc8259 _).2 ⟨[], nest m, [], by simp, ws_nil, ws_nil, value_of_denotes hd⟩
  · rw [searchCalls_nest, choices_full m m (Nat.le_refl _)]

/-- The text and the path for three members: eight calls. -/
example : nest 3 = b!"{\"a\":{\"a\":{\"a\":{}}}}" ∧ chain 3 = b!"a.a.a.b" ∧ searchCalls b!"{\"a\":{\"a\":{\"a\":{}}}}" b!"a.a.a.b" = .ok 8 := by
  decide +kernel

/-- A text that is not JSON, with an array among the objects, and a pattern in the path. -/
example : searchCalls b!" {\"a\":{\"a\":{\"x\":[\"b\":{\"a\":{\"b\"" b!"a.*.b" = .ok 10 ∧
    choices (opens b!" {\"a\":{\"a\":{\"x\":[\"b\":{\"a\":{\"b\"" - 1) (dots b!"a.*.b") = 16 := by decide +kernel

end Gjson
