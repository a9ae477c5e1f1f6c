import Verif.Lemmas.Size
/-
How long the results of the modifiers other than `@pretty` can be.
-/
namespace Gjson
open Spec

/-! ### What `each` adds up to -/

theorem runFold_array {σ : Type} {f : σ → Value → Value → Res (σ × Bool)} {P : σ → Prop} {μ : σ → Nat} {hi : Nat}
    (hf : ∀ x : Value, x.owned = [] → 1 ≤ x.slice.length → x.json.length < hi → ∀ st y, P st → f st Value.default x = .ok y →
      P y.1 ∧ μ y.1 ≤ μ st + 2 * x.slice.length) :
    ∀ (l : List Value) (lo : Nat) (st st' : σ), 1 ≤ lo → Chain lo hi l → P st → runFold f st (l.map (Value.default, ·)) = .ok st' →
      P st' ∧ μ st' + 2 * lo ≤ μ st + 2 * hi
  | [], lo, st, st', _, hc, hs, h => by
    unfold Chain at hc
    simp [runFold] at h; subst h; exact ⟨hs, by omega⟩
  | x :: r, lo, st, st', hlo, ⟨k, h1, h2, h3, h4, h5⟩, hs, h => by
    rw [List.map_cons] at h
    unfold runFold at h
    obtain ⟨⟨s1, more⟩, h6, h7⟩ := bind_eq_ok.1 h
    have hw := h5.mass
    obtain ⟨h8, h9⟩ := hf x h2 h4 (by rw [json_of_owned h2]; omega) _ _ hs h6
    simp only at h7 h9
    split at h7
    · obtain ⟨h10, h11⟩ := runFold_array hf r _ _ _ (by omega) h5 h8 h7
      simp only at h11
      exact ⟨h10, by omega⟩
    · cases h7; exact ⟨h8, by omega⟩

theorem runFold_object {σ : Type} {f : σ → Value → Value → Res (σ × Bool)} {P : σ → Prop} {μ : σ → Nat} {hi : Nat}
    (hf : ∀ (k x : Value) (i j : Nat), k.index = some i → x.index = some j → k.owned = [] → x.owned = [] →
      1 ≤ k.slice.length → 1 ≤ x.slice.length → i + k.slice.length ≤ j → ∀ st y, P st → f st k x = .ok y →
      P y.1 ∧ μ y.1 ≤ μ st + 2 * (j + x.slice.length - i)) :
    ∀ (l : List Value) (lo : Nat) (st st' : σ), Chain lo hi l → P st → runFold f st (pairUp l) = .ok st' →
      P st' ∧ μ st' + 2 * lo ≤ μ st + 2 * hi
  | [], lo, st, st', hc, hs, h => by
    unfold Chain at hc
    simp [pairUp, runFold] at h; subst h; exact ⟨hs, by omega⟩
  | [x], lo, st, st', ⟨k, h1, h2, h3, h4, h5⟩, hs, h => by
    have := h5.mass
    simp [pairUp, runFold] at h; subst h; exact ⟨hs, by omega⟩
  | a :: x :: r, lo, st, st', ⟨k, h1, h2, h3, h4, k', g1, g2, g3, g4, g5⟩, hs, h => by
    unfold pairUp at h
    unfold runFold at h
    obtain ⟨⟨s1, more⟩, h6, h7⟩ := bind_eq_ok.1 h
    have hw := g5.mass
    obtain ⟨h8, h9⟩ := hf a x k k' h1 g1 h2 g2 h4 g4 g3 _ _ hs h6
    simp only at h7 h9
    split at h7
    · obtain ⟨h10, h11⟩ := runFold_object hf r _ _ _ g5 h8 h7
      simp only at h11
      exact ⟨h10, by omega⟩
    · cases h7; exact ⟨h8, by omega⟩

theorem eachToks_start (s : Bytes) : eachToks 0 false s = [] ∨ Chain 1 s.length (eachToks 0 false s) := by
  unfold eachToks
  cases s with
  | nil => left; simp [toks_nil]
  | cons c r =>
    right
    have := toks_chain 1 r
    rw [if_neg (by decide)]
    simp only [List.drop_succ_cons, List.drop_zero, List.length_cons]
    rwa [Nat.add_comm r.length 1]

theorem each_array_sum {σ : Type} {v : Value} {f : σ → Value → Value → Res (σ × Bool)} {P : σ → Prop} {μ : σ → Nat} {st st' : σ}
    (hk : v.kind = .array)
    (hf : ∀ x : Value, x.owned = [] → 1 ≤ x.slice.length → x.json.length < v.json.length → ∀ st y, P st → f st Value.default x = .ok y →
      P y.1 ∧ μ y.1 ≤ μ st + 2 * x.slice.length)
    (hs : P st) (h : v.each f st = .ok st') : P st' ∧ μ st' ≤ μ st + 2 * (v.json.length - 1) := by
  by_cases he : v.exists = true
  · rw [each_run he (.inr hk)] at h
    unfold eachPairs at h
    rw [if_neg (by rw [hk]; decide)] at h
    rcases eachToks_start v.json with h1 | h1
    · rw [h1] at h; simp [runFold] at h; subst h; exact ⟨hs, by omega⟩
    · obtain ⟨h2, h3⟩ := runFold_array hf _ _ _ _ (Nat.le_refl _) h1 hs h
      have := h1.mass
      exact ⟨h2, by omega⟩
  · unfold Value.each at h
    rw [if_pos (by simp [he])] at h
    cases h; exact ⟨hs, by omega⟩

theorem each_object_sum {σ : Type} {v : Value} {f : σ → Value → Value → Res (σ × Bool)} {P : σ → Prop} {μ : σ → Nat} {st st' : σ}
    (hk : v.kind = .object)
    (hf : ∀ (k x : Value) (i j : Nat), k.index = some i → x.index = some j → k.owned = [] → x.owned = [] →
      1 ≤ k.slice.length → 1 ≤ x.slice.length → i + k.slice.length ≤ j → ∀ st y, P st → f st k x = .ok y →
      P y.1 ∧ μ y.1 ≤ μ st + 2 * (j + x.slice.length - i))
    (hs : P st) (h : v.each f st = .ok st') : P st' ∧ μ st' ≤ μ st + 2 * (v.json.length - 1) := by
  by_cases he : v.exists = true
  · rw [each_run he (.inl hk)] at h
    unfold eachPairs at h
    rw [if_pos hk] at h
    rcases eachToks_start v.json with h1 | h1
    · rw [h1] at h; simp [runFold, pairUp] at h; subst h; exact ⟨hs, by omega⟩
    · obtain ⟨h2, h3⟩ := runFold_object hf _ _ _ _ h1 hs h
      have := h1.mass
      exact ⟨h2, by omega⟩
  · unfold Value.each at h
    rw [if_pos (by simp [he])] at h
    cases h; exact ⟨hs, by omega⟩

/-! ### The modifiers -/

theorem parse_len {j : Bytes} {v : Value} (h : parse j = .ok v) : v.json.length ≤ j.length ∧ v.slice.length ≤ j.length := by
  rw [parse_eq] at h
  cases h
  have h1 := (pParse_infix 0 j).length_le
  refine ⟨h1, ?_⟩
  rcases pParse_oneText j 0 with h2 | h2
  · rw [h2]; simp
  · rw [json_of_owned h2] at h1; exact h1

theorem modReverse_len {j out : Bytes} (h : modReverse j = .ok out) : out.length ≤ 2 * j.length + 2 := by
  unfold modReverse at h
  obtain ⟨res, h1, h⟩ := bind_eq_ok.1 h
  obtain ⟨hr, hs⟩ := parse_len h1
  simp only at h
  split at h
  · rename_i hk
    obtain ⟨l, h2, h⟩ := bind_eq_ok.1 h
    cases h
    have := (each_object_sum (P := fun _ => True) (μ := heap) hk (by
      intro k x i j hi hj _ _ hk1 hx1 hle st y _ hy
      unfold unwrapIndex at hy
      rw [hi, hj] at hy
      simp only [ok_bind] at hy
      obtain ⟨s, h3, hy⟩ := bind_eq_ok.1 hy
      cases hy
      have := slice_len h3
      refine ⟨trivial, ?_⟩
      simp only [heap_append, heap]
      omega) trivial h2).2
    have h3 := joinComma_heap l.reverse
    rw [heap_reverse] at h3
    simp only [heap] at this
    simp only [List.length_append, List.length_cons, List.length_nil]
    omega
  · rename_i hk
    obtain ⟨l, h2, h⟩ := bind_eq_ok.1 h
    cases h
    have := (each_array_sum (P := fun _ => True) (μ := heap) hk (by
      intro x _ hx1 _ st y _ hy
      obtain ⟨_, _, hy⟩ := bind_eq_ok.1 hy
      obtain ⟨s, h3, hy⟩ := bind_eq_ok.1 hy
      cases hy
      have := slice_len h3
      refine ⟨trivial, ?_⟩
      simp only [heap_append, heap]
      omega) trivial h2).2
    have h3 := joinComma_heap l.reverse
    rw [heap_reverse] at h3
    simp only [heap] at this
    simp only [List.length_append, List.length_cons, List.length_nil]
    omega
  · cases h; omega

theorem flattenN_len {arg : Bytes} : ∀ (n : Nat) {j out : Bytes}, modFlattenN get n j arg = .ok out →
    out = j ∨ ((∃ b, out = c! '[' :: (b ++ [c! ']'])) ∧ out.length ≤ 2 * j.length + 1)
  | 0, _, _, h => by simp [modFlattenN, outOfFuel] at h
  | n + 1, j, out, h => by
    unfold modFlattenN at h
    obtain ⟨res, h1, h⟩ := bind_eq_ok.1 h
    obtain ⟨hr, hs⟩ := parse_len h1
    split at h
    · cases h; exact .inl rfl
    · rename_i hk
      have hk : res.kind = .array := by simpa using hk
      obtain ⟨d, _, h⟩ := bind_eq_ok.1 h
      obtain ⟨deep, _, h⟩ := bind_eq_ok.1 h
      obtain ⟨⟨o, m⟩, h2, h⟩ := bind_eq_ok.1 h
      cases h
      right
      have hlen := each_array_sum (P := fun st : Bytes × Nat => ∃ b, st.1 = c! '[' :: b) (μ := fun st : Bytes × Nat => st.1.length) hk (by
        intro x hxo hx1 _ st y hst hy
        obtain ⟨b0, hb0⟩ := hst
        have hraw : ∀ base : Bytes, (base = st.1 ∨ base = st.1 ++ [c! ',']) → ∀ raw : Bytes, raw.length + 1 ≤ 2 * x.slice.length →
            (if raw.length > 0 then (.ok ((base ++ raw, st.2 + 1), true) : Res ((Bytes × Nat) × Bool)) else .ok (st, true)) = .ok y →
            (∃ b, y.1.1 = c! '[' :: b) ∧ y.1.1.length ≤ st.1.length + 2 * x.slice.length := by
          intro base hb raw hr hy
          split at hy
          · cases hy
            rcases hb with rfl | rfl
            · exact ⟨⟨b0 ++ raw, by simp [hb0]⟩, by simp; omega⟩
            · exact ⟨⟨b0 ++ [c! ','] ++ raw, by simp [hb0]⟩, by simp; omega⟩
          · cases hy; exact ⟨⟨b0, hb0⟩, by simp⟩
        have hxj := json_of_owned hxo
        have hgo : ∀ base : Bytes, (base = st.1 ∨ base = st.1 ++ [c! ',']) → (if x.kind = .array then
              if deep = true then modFlattenN get n x.json arg >>= fun inner =>
                if (unwrap inner).length > 0 then (.ok ((base ++ unwrap inner, st.2 + 1), true) : Res ((Bytes × Nat) × Bool)) else .ok (st, true)
              else if (unwrap x.json).length > 0 then .ok ((base ++ unwrap x.json, st.2 + 1), true) else .ok (st, true)
            else if x.slice.length > 0 then .ok ((base ++ x.slice, st.2 + 1), true) else .ok (st, true)) = .ok y →
            (∃ b, y.1.1 = c! '[' :: b) ∧ y.1.1.length ≤ st.1.length + 2 * x.slice.length := by
          intro base hb hy
          split at hy
          · split at hy
            · obtain ⟨inner, h4, hy⟩ := bind_eq_ok.1 hy
              refine hraw base hb _ ?_ hy
              rcases flattenN_len n h4 with h5 | ⟨⟨b, h5⟩, h6⟩
              · have := (unwrap_infix inner).length_le
                rw [h5, hxj] at this
                rw [h5, hxj]; omega
              · rw [h5, unwrap_bracket b (.inl rfl) (by decide)]
                rw [h5, hxj] at h6
                simp at h6
                omega
            · refine hraw base hb _ ?_ hy
              have := (unwrap_infix x.json).length_le
              rw [hxj] at this ⊢
              omega
          · exact hraw base hb _ (by omega) hy
        by_cases hpos : st.2 > 0
        · simp only [ok_bind, if_pos hpos] at hy
          exact hgo _ (.inr rfl) hy
        · simp only [ok_bind, if_neg hpos] at hy
          exact hgo _ (.inl rfl) hy) ⟨[], rfl⟩ h2
      obtain ⟨⟨b, hb⟩, h3⟩ := hlen
      simp only at hb h3
      refine ⟨⟨b, by rw [hb]; rfl⟩, ?_⟩
      have : 1 ≤ j.length := by
        rw [parse_eq] at h1
        cases h1
        cases j with
        | nil => rw [show pParse 0 [] = Value.default from rfl] at hk; exact absurd hk (by decide)
        | cons c r => simp
      simp only [List.length_append, List.length_cons, List.length_nil] at h3 ⊢
      omega

theorem modFlatten_len {j arg out : Bytes} (h : modFlatten get j arg = .ok out) : out.length ≤ 2 * j.length + 1 := by
  rcases flattenN_len _ h with h1 | h1
  · rw [h1]; omega
  · exact h1.2

/-! ### `@join` -/

/-- The bytes of the values of a map. -/
def held : List (Bytes × Bytes) → Nat
  | [] => 0
  | p :: r => p.2.length + held r

/-- The bytes of the keys as written, with two more for each. -/
def keyed : List (Bytes × Bytes) → Nat
  | [] => 0
  | p :: r => p.1.length + 2 + keyed r

theorem keyed_append (a b : List (Bytes × Bytes)) : keyed (a ++ b) = keyed a + keyed b := by
  induction a with
  | nil => simp [keyed]
  | cons v r ih => rw [List.cons_append, keyed, keyed, ih]; omega

theorem mapInsert_held (k v : Bytes) : ∀ l : List (Bytes × Bytes), held (mapInsert k v l) ≤ held l + v.length
  | [] => by simp [mapInsert, held]
  | (k', v') :: r => by
    unfold mapInsert
    split
    · simp only [held]; omega
    · have := mapInsert_held k v r
      simp only [held]; omega

theorem mapInsert_keys (k v : Bytes) : ∀ l : List (Bytes × Bytes),
    (mapInsert k v l).map Prod.fst = if (mapGet k l).isNone then l.map Prod.fst ++ [k] else l.map Prod.fst
  | [] => by simp [mapInsert, mapGet]
  | (k', v') :: r => by
    unfold mapInsert mapGet
    split
    · rename_i h; simp [h]
    · rw [List.map_cons, mapInsert_keys k v r]
      split <;> simp

theorem mapGet_none_mem {k : Bytes} : ∀ {l : List (Bytes × Bytes)}, (mapGet k l).isNone = true → k ∉ l.map Prod.fst
  | [], _ => by simp
  | (k', v') :: r, h => by
    unfold mapGet at h
    split at h
    · simp at h
    · rename_i hne
      have := mapGet_none_mem h
      simp only [List.map_cons, List.mem_cons, not_or]
      exact ⟨fun e => hne e.symm, this⟩

theorem joinMembers_skip {k v : Bytes} {kv : List (Bytes × Bytes)} : ∀ {ks : List (Bytes × Bytes)}, k ∉ ks.map Prod.snd →
    joinMembers ((k, v) :: kv) ks = joinMembers kv ks
  | [], _ => rfl
  | (raw, k') :: r, h => by
    simp only [List.map_cons, List.mem_cons, not_or] at h
    unfold joinMembers
    rw [joinMembers_skip h.2, mapGet, if_neg h.1]

theorem joinMembers_len : ∀ {kv ks : List (Bytes × Bytes)} {l : List Bytes}, kv.map Prod.fst = ks.map Prod.snd → (ks.map Prod.snd).Nodup →
    joinMembers kv ks = .ok l → heap l = keyed ks + held kv
  | [], [], l, _, _, h => by cases h; rfl
  | [], (raw, k) :: r, l, he, _, _ => by simp at he
  | (k, v) :: kv, [], l, he, _, _ => by simp at he
  | (k, v) :: kv, (raw, k') :: r, l, he, hn, h => by
    simp only [List.map_cons, List.cons.injEq] at he
    obtain ⟨rfl, he⟩ := he
    rw [List.map_cons, List.nodup_cons] at hn
    unfold joinMembers at h
    rw [mapGet, if_pos rfl] at h
    simp only at h
    obtain ⟨rest, h1, h⟩ := bind_eq_ok.1 h
    cases h
    rw [joinMembers_skip hn.1] at h1
    have := joinMembers_len he hn.2 h1
    simp only [heap, keyed, held, List.length_append, List.length_cons, List.length_nil]
    omega

/-- What `@join` keeps while it collects members. -/
def JoinKept (st : List (Bytes × Bytes) × List (Bytes × Bytes)) : Prop := st.2.map Prod.fst = st.1.map Prod.snd ∧ (st.1.map Prod.snd).Nodup

theorem modJoin_len {arg j out : Bytes} (h : modJoin get j arg = .ok out) : out.length ≤ 2 * j.length + 2 := by
  unfold modJoin at h
  obtain ⟨res, h1, h⟩ := bind_eq_ok.1 h
  obtain ⟨hr, hs⟩ := parse_len h1
  split at h
  · cases h; omega
  · rename_i hk
    have hk : res.kind = .array := by simpa using hk
    obtain ⟨p, _, h⟩ := bind_eq_ok.1 h
    obtain ⟨pr, _, h⟩ := bind_eq_ok.1 h
    split at h
    · obtain ⟨⟨o, m⟩, h2, h⟩ := bind_eq_ok.1 h
      cases h
      have := (each_array_sum (P := fun _ => True) (μ := fun st : Bytes × Nat => st.1.length) hk (by
        intro x _ hx1 _ st y _ hy
        refine ⟨trivial, ?_⟩
        have := (unwrap_infix x.slice).length_le
        split at hy
        · cases hy; simp
        · cases hy
          split <;> simp <;> omega) trivial h2).2
      simp only [List.length_append, List.length_cons, List.length_nil] at this ⊢
      omega
    · obtain ⟨⟨keys, kv⟩, h2, h⟩ := bind_eq_ok.1 h
      obtain ⟨l, h3, h⟩ := bind_eq_ok.1 h
      cases h
      have := each_array_sum (P := JoinKept) (μ := fun st => keyed st.1 + held st.2) hk (by
        intro x hxo hx1 _ st y hst hy
        split at hy
        · cases hy; exact ⟨hst, by simp only; omega⟩
        · rename_i hxk
          obtain ⟨st2, h4, hy⟩ := bind_eq_ok.1 hy
          cases hy
          have := each_object_sum (P := JoinKept) (μ := fun st => keyed st.1 + held st.2) (by simpa using hxk) (by
            intro k' x' i' j' _ _ hko hxo' hk1 hx1' hle st y hst hy
            obtain ⟨s, _, hy⟩ := bind_eq_ok.1 hy
            cases hy
            have hh := mapInsert_held s x'.json st.2
            have hkk := mapInsert_keys s x'.json st.2
            have e1 := json_of_owned hko
            have e2 := json_of_owned hxo'
            rw [e2] at hh hkk
            unfold JoinKept
            simp only [e1, e2]
            split
            · rename_i hn
              rw [if_pos hn] at hkk
              have := mapGet_none_mem hn
              rw [hst.1] at this
              refine ⟨⟨by rw [hkk, hst.1]; simp, ?_⟩, ?_⟩
              · rw [List.map_append, List.nodup_append]
                refine ⟨hst.2, by simp, ?_⟩
                intro a ha b hb
                simp at hb
                subst hb
                intro e; subst e; exact this ha
              · rw [keyed_append]
                simp only [keyed]
                omega
            · rename_i hn
              rw [if_neg hn] at hkk
              exact ⟨⟨by rw [hkk, hst.1], hst.2⟩, by omega⟩) hst h4
          rw [json_of_owned hxo] at this
          exact ⟨this.1, by simp only; omega⟩) (st := ([], [])) ⟨rfl, by simp⟩ h2
      obtain ⟨⟨h4, h5⟩, h6⟩ := this
      simp only at h4 h5 h6
      have h7 := joinMembers_len h4 h5 h3
      have h8 := joinComma_heap l
      simp only [keyed, held] at h6
      simp only [List.length_append, List.length_cons, List.length_nil]
      omega

theorem pUgly_len : ∀ (n : Nat) (s : Bytes), s.length ≤ n → (pUgly s).length ≤ s.length
  | _, [], _ => by rw [pUgly_nil]
  | 0, c :: r, h => by simp at h
  | n + 1, c :: r, hn => by
    have hn : r.length ≤ n := by simpa using hn
    rw [List.length_cons]
    by_cases h1 : c ≤ c! ' '
    · rw [pUgly_skip h1]; have := pUgly_len n r hn; omega
    by_cases h2 : c = c! '"'
    · subst h2
      rw [pUgly_quote]
      have he := congrArg List.length (sEnd_append r false)
      have := sEnd_le r false
      have := pUgly_len n (sEnd false r).2 (by omega)
      simp only [List.length_append, List.length_cons] at he ⊢
      omega
    · rw [pUgly_keep h1 h2, List.length_cons]
      have := pUgly_len n r hn
      omega

theorem ugly_len {s t : Bytes} (h : ugly s = .ok t) : t.length ≤ s.length := by
  rw [ugly_eq] at h; cases h; exact pUgly_len _ _ (Nat.le_refl _)

end Gjson
