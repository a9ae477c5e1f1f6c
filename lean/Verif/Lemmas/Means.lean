import Verif.Lemmas.RulesMods
/-
The code obeys all rules of `Spec.Means`.
-/
namespace Gjson
open Spec

theorem test_self {op : Option Op} {rh e : Bytes} {b : Bool} (hc : Compared op rh e b) : TestOk [] op rh e b := by
  rintro ⟨w, h1, h2, h3⟩
  refine ⟨w, by rw [if_pos rfl, h1], compared_ok ⟨fits_of h2 h3, ?_⟩ hc⟩
  rw [parse_eq] at h1
  rw [← Except.ok.inj h1]
  exact .modifier 0 e

theorem test_path {lh rh e x : Bytes} {op : Option Op} {b : Bool} (hn : lh ≠ []) (h : Gives (get e lh) x) (hc : Compared op rh x b) :
    TestOk lh op rh e b := by
  intro _
  obtain ⟨w, h1, h2⟩ := gives_has h
  exact ⟨w, by rw [if_neg hn, h1], compared_ok h2 hc⟩

mutual
theorem means_ok {doc path r : Bytes} (h : Means doc path r) : Gives (get doc path) r :=
  match h with
  | .look hp hs => means_look hp (seeks_ok hs)
  | .empty hk ht => means_empty hk (then_ok ht)
  | .scalar hv hp h1 h2 hk ht => means_scalar hv hp h1 h2 hk (then_ok ht)
  | .lines hj hr => means_lines hj (rows_ok hr)
  | .call hm hw hk ht => means_call hm (writes_ok hw) hk (then_ok ht)
  | .array h1 h2 h3 ht => means_array h1 h2 (fun e he => means_ok (h3 e he)) (then_ok ht)
  | .object h1 h2 h3 ht => means_object h1 h2 (fun e he => means_ok (h3 e he)) (then_ok ht)

theorem then_ok {x t r : Bytes} (h : Then x t r) : ThenOk x t r :=
  match h with
  | .done => then_done
  | .dot h => then_sep (.inl rfl) (means_ok h)
  | .pipe h => then_sep (.inr rfl) (means_ok h)

theorem seeks_ok {v path r : Bytes} {b : Bool} (h : Seeks v path r b) : SeeksOk v path r b :=
  match h with
  | .obj ho hk hw => seeks_obj ho hk (walks_ok hk hw)
  | .arr ha hr => seeks_arr ha (rows_ok hr)

theorem walks_ok {k t r : Bytes} {es : List Seen} {b : Bool} (hk : Step k) (h : Walks k t es r b) : WalksOk k t es r b :=
  match h with
  | .nil ht => walks_nil hk (then_ok ht)
  | .stop ht => walks_stop hk (then_ok ht)
  | .skip hn hw => walks_skip hk hn (walks_ok hk hw)
  | .hit hs hx ht => walks_hit hk hs hx (then_ok ht)
  | .into hs hi => walks_into hk hs (seeks_ok hi)
  | .again hs hi hm hw => walks_again hk hs (seeks_ok hi) hm (walks_ok hk hw)

theorem rows_ok {vs : List Bytes} {path r : Bytes} {b : Bool} (h : Rows vs path r b) : RowsOk vs path r b :=
  match h with
  | .elem hk hi hn he ht => rows_elem hk hi hn he (then_ok ht)
  | .beyond hk hi ht => rows_beyond hk hi (then_ok ht)
  | .count hp ht => rows_count hp (then_ok ht)
  | .map h1 h2 h3 h4 ht => rows_map h1 h2 h3 (fun v hv => means_ok (h4 v hv)) (then_ok ht)
  | .first hq h1 h2 ht => rows_first hq (fun v hv => test_ok (h1 v hv)) h2 (then_ok ht)
  | .firstNone hq h1 h2 ht => rows_firstNone hq (fun v hv => test_ok (h1 v hv)) h2 (then_ok ht)
  | .all hq h1 h2 ht => rows_all hq (fun v hv => test_ok (h1 v hv)) h2 (then_ok ht)
  | .allMap hq h1 h2 h3 h4 h5 ht =>
    rows_allMap hq (fun v hv => test_ok (h1 v hv)) h2 h3 h4 (fun v hv => means_ok (h5 v hv)) (then_ok ht)

theorem test_ok {lh rh e : Bytes} {op : Option Op} {b : Bool} (h : Test lh op rh e b) : TestOk lh op rh e b :=
  match h with
  | .self hc => test_self hc
  | .path hn hm hc => test_path hn (means_ok hm) hc

theorem writes_ok {n a doc out : Bytes} (h : Writes n a doc out) : modApply get n doc a = .ok out :=
  match h with
  | .this => rfl
  | .valid h => writes_valid h
  | .invalid h => writes_invalid h
  | .unknown h => writes_unknown h
  | .reverseArray h1 h2 => writes_reverseArray h1 h2
  | .reverseObject h1 h2 h3 => writes_reverseObject h1 h2 h3
  | .reverseEmpty h1 h2 => writes_reverseEmpty h1 h2
  | .reverseScalar h1 h2 h3 h4 => writes_reverseScalar h1 h2 h3 h4
  | .reverseNone => rfl
  | .ugly h => writes_ugly h
  | .uglyNone => rfl
  | .pretty h1 h2 h4 h5 h6 h7 h8 h9 h10 h11 =>
    writes_pretty h1 h2 (means_ok h4) h5 (means_ok h6) h7 (means_ok h8) h9 (means_ok h10) h11
  | .prettyNone h1 h2 => writes_prettyNone (means_ok h1) h2
  | .flatten h1 h2 h3 h4 => writes_flatten h1 h2 (means_ok h3) h4
  | .flattenDeep h1 h2 h3 h4 h5 => writes_flattenDeep h1 h2 (means_ok h3) h4 h5
  | .join h1 h2 h3 h4 h5 h6 => writes_join h1 h2 (means_ok h3) h4 h5 h6
  | .joinKeep h1 h2 h3 h4 => writes_joinKeep h1 h2 (means_ok h3) h4
  | .noArray h1 h2 h3 h4 => writes_noArray h1 h2 h3 h4
  | .noneArray h1 => writes_noneArray h1
end

end Gjson
