import Verif.Lemmas.Mods
/-
The exact text that `@flatten` and `@join` write.
-/
namespace Gjson
open Spec

theorem commaSep_snoc (p : Bytes) : ∀ {ps : List Bytes}, ps ≠ [] → commaSep (ps ++ [p]) = commaSep ps ++ c! ',' :: p
  | [], h => absurd rfl h
  | [q], _ => by simp [commaSep]
  | q :: q' :: ps, _ => by
    have := commaSep_snoc p (ps := q' :: ps) (by simp)
    simp only [List.cons_append, commaSep, List.append_assoc] at this ⊢
    rw [this]

/-- The state of a loop that writes pieces with commas between them. -/
def PieceState (o : UInt8) (ps : List Bytes) (st : Bytes × Nat) : Prop := st.1 = o :: commaSep ps ∧ (st.2 > 0 ↔ ps ≠ [])

theorem PieceState.push {o : UInt8} {ps : List Bytes} {st : Bytes × Nat} (h : PieceState o ps st) (p : Bytes) :
    PieceState o (ps ++ [p]) ((if st.2 > 0 then st.1 ++ [c! ','] else st.1) ++ p, st.2 + 1) := by
  refine ⟨?_, by simp⟩
  by_cases he : ps = []
  · subst he
    have : ¬ st.2 > 0 := fun h' => h.2.1 h' rfl
    simp only [if_neg this, h.1]
    simp [commaSep]
  · simp only [if_pos (h.2.2 he), h.1]
    rw [commaSep_snoc p he]
    simp

theorem unwrap_value {v : Bytes} (h : IsValue v) (hk : kindOf v = .object ∨ kindOf v = .array) : unwrap v = inside v := by
  have key : ∀ {a z : UInt8} (b : Bytes), (a = c! '[' ∨ a = c! '{') → c! ' ' < z → unwrap (a :: (b ++ [z])) = inside (a :: (b ++ [z])) := by
    intro a z b ha hz
    rw [unwrap_bracket b ha hz]
    simp [inside]
  rcases hk with hk | hk
  · obtain ⟨kvs, ho⟩ := C28_covers v h hk
    rcases ho with ⟨w, hw, rfl, rfl⟩ | ⟨ms, _, _, _, rfl, rfl⟩
    · exact key _ (.inr rfl) (by decide)
    · exact key _ (.inr rfl) (by decide)
  · obtain ⟨vs, ha⟩ := C27_covers v h hk
    rcases ha with ⟨w, hw, rfl, rfl⟩ | ⟨ms, _, _, _, rfl, rfl⟩
    · exact key _ (.inl rfl) (by decide)
    · exact key _ (.inl rfl) (by decide)

theorem flatten_pieces {json : Bytes} {inner : Bytes → Res Bytes} : ∀ {vs : List Bytes} {vals : List Value}, Aligned (ElemAt json) vals vs →
    ∀ {ps : List Bytes} {st : Bytes × Nat}, PieceState (c! '[') ps st →
    ∃ st', visit (flatStep false inner) st vals = .ok st' ∧ PieceState (c! '[') (ps ++ flatPieces vs) st'
  | [], vals, h, ps, st, hst => by
    cases h
    exact ⟨st, rfl, by simpa [flatPieces] using hst⟩
  | v :: vs, vals, h, ps, st, hst => by
    cases h with
    | cons hx hr =>
      obtain ⟨hv, i, q, _, rfl, hA⟩ := hx
      have e1 : flatStep false inner st (leafVal (some i) v) =
          .ok (flatPush (if kindOf v = .array then inside v else v) st, true) := by
        refine flatStep_push ?_ st
        unfold flatRaw
        rw [leafVal_kind' hv]
        split
        · rename_i hk
          rw [if_neg (by decide), leafVal_json, unwrap_value hv (.inr hk)]
        · simp [leafVal]
      have hst' : PieceState (c! '[') (ps ++ flatPieces [v]) (flatPush (if kindOf v = .array then inside v else v) st) := by
        unfold flatPush
        generalize hp : (if kindOf v = .array then inside v else v) = p
        cases p with
        | nil => simpa [flatPieces, hp] using hst
        | cons c p =>
          rw [if_pos (by simp)]
          have := hst.push (c :: p)
          simpa [flatPieces, hp] using this
      obtain ⟨st', h1, h2⟩ := flatten_pieces hr hst'
      refine ⟨st', ?_, ?_⟩
      · simp only [visit, e1]; rw [if_pos trivial]; exact h1
      · have : flatPieces (v :: vs) = flatPieces [v] ++ flatPieces vs := by
          unfold flatPieces
          rw [List.map_cons, ← List.filter_append]; rfl
        rw [this, ← List.append_assoc]
        exact h2

/-- What `@flatten` writes for one level. -/
theorem modFlatten_text {t doc arg : Bytes} {vs : List Bytes} (h : IsArray t vs) (hp : Padded t doc)
    {d : Value} (hd : get arg b!"deep" = .ok d) (hb : d.bool = .ok false) :
    modFlatten get doc arg = .ok (arrayText (flatPieces vs)) := by
  obtain ⟨json, vals, _, h1, h2⟩ := flatten_run (n := doc.length) h hp hd hb
  obtain ⟨st', h3, h4⟩ := flatten_pieces (inner := fun j => modFlattenN get doc.length j arg) h1 (ps := []) (st := ([c! '['], 0)) ⟨rfl, by simp⟩
  unfold modFlatten
  rw [h2, h3]
  simp only [ok_bind]
  rw [h4.1, List.nil_append]
  simp [arrayText]

theorem keep_pieces {json : Bytes} : ∀ {vs : List Bytes} {vals : List Value}, Aligned (ElemAt json) vals vs →
    ∀ {ps : List Bytes} {st : Bytes × Nat}, PieceState (c! '{') ps st →
    ∃ st', visit keepStep st vals = .ok st' ∧ PieceState (c! '{') (ps ++ keptPieces vs) st'
  | [], vals, h, ps, st, hst => by
    cases h
    exact ⟨st, rfl, by simpa [keptPieces] using hst⟩
  | v :: vs, vals, h, ps, st, hst => by
    cases h with
    | cons hx hr =>
      obtain ⟨hv, i, q, _, rfl, hA⟩ := hx
      by_cases hk : kindOf v = .object
      · have e1 : keepStep st (leafVal (some i) v) =
            .ok (((if st.2 > 0 then st.1 ++ [c! ','] else st.1) ++ inside v, st.2 + 1), true) := by
          unfold keepStep
          rw [leafVal_kind' hv, if_neg (by simp [hk])]
          simp only [leafVal, mkVal_slice]
          rw [unwrap_value hv (.inl hk)]
        obtain ⟨st', h1, h2⟩ := keep_pieces hr (hst.push (inside v))
        refine ⟨st', ?_, ?_⟩
        · simp only [visit, e1]; rw [if_pos trivial]; exact h1
        · have : keptPieces (v :: vs) = [inside v] ++ keptPieces vs := by simp [keptPieces, hk]
          rw [this, ← List.append_assoc]
          exact h2
      · have e1 : keepStep st (leafVal (some i) v) = .ok (st, true) := by
          unfold keepStep
          rw [if_pos (by rw [leafVal_kind' hv]; exact hk)]
        obtain ⟨st', h1, h2⟩ := keep_pieces hr hst
        refine ⟨st', ?_, ?_⟩
        · simp only [visit, e1]; rw [if_pos trivial]; exact h1
        · have : keptPieces (v :: vs) = keptPieces vs := by simp [keptPieces, hk]
          rw [this]
          exact h2

/-- What `@join` writes with `preserve`. -/
theorem modJoin_text {t doc arg : Bytes} {vs : List Bytes} (h : IsArray t vs) (hp : Padded t doc)
    {p : Value} (hp1 : get arg b!"preserve" = .ok p) (hp2 : p.bool = .ok true) :
    modJoin get doc arg = .ok (c! '{' :: (commaSep (keptPieces vs) ++ [c! '}'])) := by
  obtain ⟨v, r, h1, h2, h3, h4⟩ := parse_array h hp
  obtain ⟨vals, h5, h6⟩ := each_array h h2 h4
  obtain ⟨st', g1, g2⟩ := keep_pieces h5 (ps := []) (st := ([c! '{'], 0)) ⟨rfl, by simp⟩
  unfold modJoin
  rw [h1]
  simp only [ok_bind]
  rw [if_neg (by rw [h2]; decide)]
  simp only [hp1, hp2, ok_bind, h6]
  rw [if_pos trivial]
  have e : visit (fun (st : Bytes × Nat) (value : Value) =>
      if value.kind ≠ .object then .ok (st, true)
      else .ok (((if st.2 > 0 then st.1 ++ [c! ','] else st.1) ++ unwrap value.slice, st.2 + 1), true)) ([c! '{'], 0) vals = .ok st' := g1
  rw [e]
  simp only [ok_bind]
  rw [g2.1, List.nil_append]
  simp

/-- What a modifier call gives when the modifier writes an array or object, or what looks
like one. -/
theorem get_mod_text {n a m : Bytes} (hm : ModCall n a m) {text : Bytes} {c : UInt8} {q : Bytes} (hc : c = c! '[' ∨ c = c! '{')
    (ho : modApply get n text a = .ok (c :: q)) : ∃ r, get text m = .ok r ∧ SameAsText r (c :: q) := by
  have hg := get_mod hm (t := []) (sep := 0) (rest := []) ⟨rfl, rfl⟩ text
  rw [List.append_nil, ho] at hg
  have hs := sameValue_owned (pParse_oneText (c :: q) 0)
  have hp : (pParse 0 (c :: q)).json = c :: q ∧ (pParse 0 (c :: q)).kind = kindOf (c :: q) := by
    rcases hc with rfl | rfl
    · have e : pParse 0 (c! '[' :: q) = mkVal (c! '[' :: q) (some 0) (INFO_ARRAY ||| INFO_FOG) := by
        unfold pParse; rw [if_neg (by decide), if_neg (by decide), if_pos rfl]
      rw [e]
      exact ⟨mkVal_json _ _ _, by rw [mkVal_kind, show kindMap _ = Kind.array from by decide]; rfl⟩
    · have e : pParse 0 (c! '{' :: q) = mkVal (c! '{' :: q) (some 0) (INFO_OBJECT ||| INFO_FOG) := by
        unfold pParse; rw [if_neg (by decide), if_pos rfl]
      rw [e]
      exact ⟨mkVal_json _ _ _, by rw [mkVal_kind, show kindMap _ = Kind.object from by decide]; rfl⟩
  exact ⟨_, hg, hs.json.trans hp.1, hs.kind.trans hp.2, _, parse_eq _, hs⟩

end Gjson
