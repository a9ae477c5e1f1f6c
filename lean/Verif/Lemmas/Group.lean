import Verif.Lemmas.Wild
import Verif.Lemmas.Piece
import Verif.Lemmas.Total
/-
Documents that are sequences of values (arrays and JSON Lines), the groups of
`#.path`, and the totality of `get` for ordinary components.
-/
namespace Gjson
open Spec

/-! ### Sequences -/

theorem jsonLines_toks {doc : Bytes} {vs : List Bytes} (h : JsonLines doc vs) :
    ∀ i, Aligned SameAsText (toks i doc) vs := by
  induction h with
  | nil hw => intro i; have := toks_ws (s := []) hw i; rw [List.append_nil] at this; rw [this, toks_nil]; exact .nil
  | @last w v hw hv =>
    intro i
    have := toks_value (i := i + w.length) (r := []) hv .nil
    rw [List.append_nil] at this
    rw [toks_ws hw, this, toks_nil]
    exact .cons (leaf_sameAsText hv _) .nil
  | @cons w v r c vs hw hv hc _ ih =>
    intro i
    rw [toks_ws hw, toks_value hv (.cons (.inl hc)), toks_skip (.inl (ws_le hc))]
    exact .cons (leaf_sameAsText hv _) (ih _)

/-- What `get` does on a sequence with a path that is no modifier or multipath. -/
theorem sequence_get {doc pre : Bytes} {vs : List Bytes} (h : Sequence doc pre vs) :
    ∃ vals, Aligned SameAsText vals vs ∧ (∀ v ∈ vals, v.exists = true ∧ v.json = v.slice) ∧ (∀ v ∈ vals, Met v) ∧
      ∀ path, linesPrefix path = (path, false) → (pNext path).isModifier = false ∧ (pNext path).isMultipath = false →
      get doc (pre ++ path) = (gArrVals get (pNext path) vals >>= finish) := by
  cases h with
  | @array t _ ha hp =>
    obtain ⟨w1, w2, h1, h2, rfl⟩ := hp
    refine ⟨_, array_toks ha w2 ((w1 ++ (t ++ w2)).length - (t ++ w2).length), eachToks_exist _ _ _, fun v hv => ⟨eachToks_prov _ _ _ v hv, eachToks_clean _ _ _ v hv⟩,
      fun path hl hm => ?_⟩
    rw [List.nil_append, get_start hl hm, gStart_ws _ _ _ h1, gStart_cont _ _ _ (IsArray.isCont ha), gCont_arr _ _ _ ha]
  | lines hj =>
    refine ⟨eachToks (doc.length - doc.length) true doc, ?_, eachToks_exist _ _ _,
      fun v hv => ⟨eachToks_prov _ _ _ v hv, eachToks_clean _ _ _ v hv⟩, fun path hl hm => ?_⟩
    · unfold eachToks; exact jsonLines_toks hj _
    · have hlp : linesPrefix (b!".." ++ path) = (path, true) := rfl
      rw [get_eq, getBody, getFirst_eq, hlp]
      simp only [if_true]
      unfold gArr
      cases gArrVals get (pNext path) (eachToks (doc.length - doc.length) true doc) <;> rfl

/-! ### Totality for ordinary components -/

theorem gCont_ordFine (B : Prop) (L : Nat) {ks : List Bytes} : OrdComps ks → ks ≠ [] → ∀ (s : Bytes),
    Fine B (gCont get L (pNext (dotPath ks)) s) := by
  induction ks with
  | nil => intro _ h; exact absurd rfl h
  | cons k ks ih =>
    intro ho _ s
    have hk := ho k (by simp)
    have hto : OrdComps ks := fun x hx => ho x (List.mem_cons_of_mem _ hx)
    unfold gCont
    split
    · rename_i hs
      cases s with
      | nil => simp at hs
      | cons c r =>
        simp at hs
        subst hs
        rw [gObj_cons]
        refine gObjLoop_fine (fun hdv v => ?_) r
        rw [if_pos hdv]
        have hks : ks ≠ [] := by
          rintro rfl
          obtain ⟨e, p, h1, _⟩ := ord_next (ks := []) [] hk
          rw [(h1 rfl).1] at hdv
          unfold Path.dives at hdv; simp at hdv
        obtain ⟨e, p, _, h2⟩ := ord_next (ks := ks) [] hk
        rw [(h2 hks).1]
        exact ih hto hks v
    · obtain ⟨e, p, h1, h2⟩ := ord_next (ks := ks) [] hk
      unfold gArr
      by_cases hks : ks = []
      · rw [(h1 hks).1, gArrVals_ord _ hk.2.1]; exact .ok _
      · rw [(h2 hks).1, gArrVals_ord _ hk.2.1]; exact .ok _

theorem gStart_ordFine (B : Prop) (L : Nat) {ks : List Bytes} (ho : OrdComps ks) (hne : ks ≠ []) : ∀ (s : Bytes),
    Fine B (gStart get L (pNext (dotPath ks)) s)
  | [] => .ok _
  | c :: r => by
    have := gCont_ordFine B L ho hne (c :: r)
    unfold gCont at this
    unfold gStart
    split
    · exact gStart_ordFine B L ho hne r
    split
    · rename_i hc
      rw [if_pos (by simp [hc])] at this; exact this
    split
    · rename_i hc _
      rw [if_neg (by simpa using hc)] at this; exact this
    · exact .ok _

theorem get_ordOk {n : Nat} : ∀ {ks : List Bytes}, ks.length ≤ n → OrdComps ks → ks ≠ [] → ∀ (json : Bytes),
    Fine False (get json (dotPath ks)) := by
  induction n with
  | zero => intro ks hn _ hne; cases ks <;> simp at hn hne
  | succ n ih =>
    intro ks hn ho hne json
    obtain ⟨k, ks', rfl⟩ : ∃ k ks', ks = k :: ks' := by
      cases ks with
      | nil => exact absurd rfl hne
      | cons a b => exact ⟨a, b, rfl⟩
    rw [(get_dotOrd (ks := ks') (ho k (by simp)) json []).1]
    refine (gStart_ordFine False _ ho hne json).bind (fun x hx => ?_)
    obtain ⟨u, p⟩ := x
    obtain ⟨_, ms, x2, x3, x4, x5⟩ := gStart_piece _ ho hne _ _ hx
    simp only at x5
    subst x5
    obtain ⟨m, ms, rfl⟩ : ∃ m ms', ms = m :: ms' := by
      cases ms with
      | nil => exact absurd rfl x2
      | cons a b => exact ⟨a, b, rfl⟩
    obtain ⟨e, p, y1, y2⟩ := ord_next (ks := ms) [] (x4 m (by simp))
    by_cases hms : ms = []
    · rw [(y1 hms).1]; exact .ok _
    · rw [(y2 hms).1]
      have hlen : ms.length ≤ n := by simp at x3 hn; omega
      exact getIn_fine (@ih ms hlen (fun x hx => x4 x (List.mem_cons_of_mem _ hx)) hms)

/-- `get` with ordinary components always returns a value. -/
theorem get_ord {ks : List Bytes} (ho : OrdComps ks) (hne : ks ≠ []) (json : Bytes) : ∃ v, get json (dotPath ks) = .ok v := by
  rcases get_ordOk (Nat.le_refl _) ho hne json with h | ⟨_, h⟩
  · exact h
  · exact h.elim

/-! ### Groups -/

/-- The next component of a dot path followed by a pipe or nothing. -/
theorem tail_next {k : Bytes} {ks : List Bytes} {sep : UInt8} {rest t : Bytes} (h : OrdComp k) (ht : Tail sep rest t) :
    ∃ e p, (ks = [] → pNext (dotPath (k :: ks) ++ t) = ⟨k, e, p, sep, 0, rest⟩) ∧
      (ks ≠ [] → pNext (dotPath (k :: ks) ++ t) = ⟨k, e, p, c! '.', 0, dotPath ks ++ t⟩) := by
  obtain ⟨⟨e, p, hc⟩, hf, _⟩ := h
  refine ⟨e, p, ?_, ?_⟩
  · rintro rfl
    simpa [dotPath] using pNext_comp hc hf ht
  · intro hne
    cases ks with
    | nil => exact absurd rfl hne
    | cons k' ks =>
      have : dotPath (k :: k' :: ks) ++ t = k ++ c! '.' :: (dotPath (k' :: ks) ++ t) := by simp [dotPath]
      rw [this]
      exact pNext_comp hc hf ⟨.inl rfl, rfl, rfl⟩

theorem nextGroupLoop_dot {sep : UInt8} {rest t : Bytes} (ht : Tail sep rest t) (hs : sep ≠ c! '.') :
    ∀ (ks : List Bytes) (k : Bytes), OrdComps (k :: ks) → ∀ (n len : Nat), (dotPath (k :: ks)).length < n →
      ∃ p : Path, p.sep = sep ∧ p.extra = rest ∧
        nextGroupLoop n (len + k.length) (pNext (dotPath (k :: ks) ++ t)) = .ok (len + (dotPath (k :: ks)).length, p)
  | [], k, ho, n, len, hn => by
    obtain ⟨e, p, h1, _⟩ := tail_next (ks := []) (ho k (by simp)) ht
    rw [h1 rfl]
    obtain ⟨n, rfl⟩ : ∃ m, n = m + 1 := ⟨n - 1, by omega⟩
    unfold nextGroupLoop
    rw [if_neg hs]
    exact ⟨⟨k, e, p, sep, 0, rest⟩, rfl, rfl, by simp [dotPath]⟩
  | k' :: ks, k, ho, n, len, hn => by
    obtain ⟨e, p, _, h2⟩ := tail_next (ks := k' :: ks) (ho k (by simp)) ht
    rw [h2 (by simp)]
    obtain ⟨n, rfl⟩ : ∃ m, n = m + 1 := ⟨n - 1, by omega⟩
    unfold nextGroupLoop
    rw [if_pos rfl, pathNext_eq]
    simp only [ok_bind]
    have hlen : (dotPath (k :: k' :: ks)).length = k.length + 1 + (dotPath (k' :: ks)).length := by
      simp [dotPath]; omega
    obtain ⟨q, q1, q2, q3⟩ := nextGroupLoop_dot ht hs ks k' (fun x hx => ho x (List.mem_cons_of_mem _ hx)) n
      (len + k.length + 1) (by omega)
    have hc : (pNext (dotPath (k' :: ks) ++ t)).comp = k' := by
      obtain ⟨e, p, h1, h2⟩ := tail_next (ks := ks) (ho k' (by simp)) ht
      by_cases hks : ks = []
      · rw [h1 hks]
      · rw [h2 hks]
    rw [hc, q3]
    exact ⟨q, q1, q2, by rw [hlen]; congr 2; omega⟩

/-- The group of a path of ordinary components, up to a pipe or the end. -/
theorem pGroup_dot {sep : UInt8} {rest t : Bytes} (ht : Tail sep rest t) (hs : sep ≠ c! '.')
    {ks : List Bytes} (ho : OrdComps ks) (hne : ks ≠ []) {p : Path} (hp : p.sep = c! '.') (hx : p.extra = dotPath ks ++ t) :
    (pGroup p).1 = dotPath ks ∧ (pGroup p).2.sep = sep ∧ (pGroup p).2.extra = rest := by
  obtain ⟨k, ks, rfl⟩ : ∃ k ks', ks = k :: ks' := by
    cases ks with
    | nil => exact absurd rfl hne
    | cons a b => exact ⟨a, b, rfl⟩
  obtain ⟨q, q1, q2, q3⟩ := nextGroupLoop_dot ht hs ks k ho (p.extra.length + 1) 0 (by rw [hx]; simp; omega)
  have hc : (pNext (dotPath (k :: ks) ++ t)).comp = k := by
    obtain ⟨e, p, h1, h2⟩ := tail_next (ks := ks) (ho k (by simp)) ht
    by_cases hks : ks = []
    · rw [h1 hks]
    · rw [h2 hks]
  have h := nextGroup_eq p
  unfold Path.nextGroup at h
  rw [if_neg (by simp [hp]), pathNext_eq] at h
  simp only [ok_bind] at h
  rw [← hx] at q3 hc
  rw [hc] at h
  rw [Nat.zero_add, Nat.zero_add] at q3
  rw [q3] at h
  simp only [ok_bind] at h
  rw [slice_ok (by omega) (by rw [hx]; simp)] at h
  simp only [ok_bind, Except.ok.injEq] at h
  rw [← h]
  refine ⟨?_, q1, q2⟩
  simp only [sub, hx]; simp

/-! ### Mapping a path over the elements -/

/-- The results of a path on each of the texts. -/
def Results (path : Bytes) (vs : List Bytes) (ws : List Value) : Prop := Aligned (fun e w => get e path = .ok w) vs ws

theorem results_exist {path : Bytes} (h : ∀ e, ∃ v, get e path = .ok v) : ∀ vs, ∃ ws, Results path vs ws
  | [] => ⟨[], .nil⟩
  | v :: vs => by
    obtain ⟨w, hw⟩ := h v
    obtain ⟨ws, hws⟩ := results_exist h vs
    exact ⟨w :: ws, .cons hw hws⟩

theorem existing_cons (v : Value) (l : List Value) :
    existing (v :: l) = (if v.exists then [v.json] else []) ++ existing l := by
  unfold existing
  rw [List.filter_cons]
  split <;> simp_all

theorem existing_append (a b : List Value) : existing (a ++ b) = existing a ++ existing b := by
  unfold existing; simp

theorem joinComma_eq (l : List Bytes) : joinComma l = commaSep l := by
  induction l with
  | nil => rfl
  | cons a l ih =>
    cases l with
    | nil => rfl
    | cons b l => rw [joinComma, commaSep, ih]; simp

/-- `getIn` on an element that was met while scanning. -/
theorem getIn_elem {v : Value} {e path : Bytes} {w : Value} (hv : v.exists = true ∧ v.json = v.slice) (he : SameAsText v e)
    (h : get e path = .ok w) : ∃ u, getIn get v path = .ok u ∧ SameValue u w := by
  have hs : v.slice = e := by rw [← hv.2]; exact he.1
  rw [getIn_slice (by rw [← hv.2]; exact exists_json.1 hv.1), hs, h]
  exact ⟨_, rfl, sameValue_addIndex _ _⟩

theorem collect_map {path : Bytes} {vals : List Value} {vs : List Bytes} (h : Aligned SameAsText vals vs) :
    ∀ {ws : List Value}, Results path vs ws → (∀ v ∈ vals, v.exists = true ∧ v.json = v.slice) →
    ∃ l, collectR (fun v => do .ok (some (← getIn get v path))) vals = .ok l ∧ existing l = existing ws := by
  induction h with
  | nil => intro ws hw _; cases hw; exact ⟨[], rfl, rfl⟩
  | @cons v e vals vs hve _ ih =>
    intro ws hw hs
    cases hw with
    | @cons _ w _ ws h1 h2 =>
    obtain ⟨u, hu1, hu2⟩ := getIn_elem (hs v (by simp)) hve h1
    obtain ⟨l, hl1, hl2⟩ := ih h2 (fun x hx => hs x (List.mem_cons_of_mem _ hx))
    refine ⟨u :: l, ?_, ?_⟩
    · unfold collectR; rw [hu1, hl1]; rfl
    · rw [existing_cons, existing_cons, hl2, hu2.exists, hu2.json]

theorem pNext_hashTail {sep : UInt8} {t rest : Bytes} (ht : Tail sep rest t) :
    pNext (c! '#' :: t) = ⟨[c! '#'], false, false, sep, 0, rest⟩ := by
  have := pathNext_eq (c! '#' :: t)
  rw [pathNext_hash ht] at this
  simpa using this.symm

/-- `#.path` on a sequence, followed by nothing or a pipe. -/
theorem sequence_map {doc pre : Bytes} {vs : List Bytes} (h : Sequence doc pre vs) {ks : List Bytes} (ho : OrdComps ks)
    (hne : ks ≠ []) {sep : UInt8} {rest t : Bytes} (ht : Tail sep rest t) (hs : sep ≠ c! '.') {ws : List Value}
    (hw : Results (dotPath ks) vs ws) :
    get doc (pre ++ (b!"#." ++ (dotPath ks ++ t))) =
      (let w := mkOwned (arrayText (existing ws)) none INFO_ARRAY
       if sep = 0 then .ok w else getIn get w rest) := by
  have hnx : pNext (b!"#." ++ (dotPath ks ++ t)) = ⟨[c! '#'], false, false, c! '.', 0, dotPath ks ++ t⟩ :=
    pNext_hashTail ⟨.inl rfl, rfl, rfl⟩
  obtain ⟨vals, a1, a2, _, a3⟩ := sequence_get h
  rw [a3 _ rfl (by rw [hnx]; exact ⟨rfl, rfl⟩), hnx]
  obtain ⟨g1, g2, g3⟩ := pGroup_dot ht hs ho hne (p := ⟨[c! '#'], false, false, c! '.', 0, dotPath ks ++ t⟩) rfl rfl
  obtain ⟨l, l1, l2⟩ := collect_map a1 hw a2
  unfold gArrVals
  simp only [if_true]
  rw [g1, l1]
  simp only [ok_bind]
  unfold finish Path.more
  simp only [g2, g3]
  have : arrayOf l = mkOwned (arrayText (existing ws)) none INFO_ARRAY := by
    unfold arrayOf arrayText; rw [l2, joinComma_eq]
  rw [this]
  by_cases h0 : sep = 0 <;> simp [h0]

end Gjson
