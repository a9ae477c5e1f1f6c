import Verif.Lemmas.PrettyOk
import Verif.Lemmas.PrettyHead
/-
What `pretty` writes does not depend on blanks in front of the text.
-/
namespace Gjson

open Spec

section
variable {w json : Bytes}

theorem lead_idx (i : Nat) : idx (w ++ json) (i + w.length) = idx json i := by
  unfold idx
  rw [List.getElem?_append_right (by omega), Nat.add_sub_cancel]

theorem lead_sub (s e : Nat) : sub (w ++ json) (s + w.length) (e + w.length) = sub json s e := by
  unfold sub
  rw [List.drop_append, List.drop_eq_nil_of_le (by omega), show s + w.length - w.length = s by omega,
    show e + w.length - (s + w.length) = e - s by omega, List.nil_append]

theorem lead_slice (s e : Nat) : slice (w ++ json) (s + w.length) (e + w.length) = slice json s e := by
  unfold slice
  rw [lead_sub, List.length_append]
  split
  · rw [if_pos (by omega)]
  · rw [if_neg (by omega)]

theorem lead_sliceFrom (s : Nat) : sliceFrom (w ++ json) (s + w.length) = sliceFrom json s := by
  unfold sliceFrom
  rw [List.length_append, List.drop_append, List.drop_eq_nil_of_le (by omega), show s + w.length - w.length = s by omega, List.nil_append]
  split
  · rw [if_pos (by omega)]
  · rw [if_neg (by omega)]

theorem lead_backslashes {s : Nat} : ∀ {n n' j sc x : Nat}, prettyBackslashes json s n j sc = .ok x → n ≤ n' →
    prettyBackslashes (w ++ json) (s + w.length) n' (j + w.length) sc = .ok x
  | 0, _, _, _, _, h, _ => by simp [prettyBackslashes, outOfFuel] at h
  | n + 1, 0, _, _, _, _, hn => by omega
  | n + 1, n' + 1, j, sc, x, h, hn => by
    unfold prettyBackslashes at h ⊢
    split at h
    · rename_i hj
      rw [if_pos (by omega), lead_idx]
      obtain ⟨c, hc, h⟩ := bind_eq_ok.1 h
      rw [hc, ok_bind]
      split at h
      · rename_i hb
        rw [if_pos hb, show j + w.length - 1 = j - 1 + w.length by omega]
        exact lead_backslashes h (by omega)
      · rename_i hb
        rw [if_neg hb]; exact h
    · rename_i hj
      rw [if_neg (by omega)]; exact h

theorem lead_stringEnd {s : Nat} : ∀ {n n' i x : Nat}, prettyStringEnd json s n i = .ok x → n ≤ n' →
    prettyStringEnd (w ++ json) (s + w.length) n' (i + w.length) = .ok (x + w.length)
  | 0, _, _, _, h, _ => by simp [prettyStringEnd, outOfFuel] at h
  | n + 1, 0, _, _, _, hn => by omega
  | n + 1, n' + 1, i, x, h, hn => by
    unfold prettyStringEnd at h ⊢
    have hs : i + w.length + 1 = i + 1 + w.length := by omega
    split at h
    · rename_i hj
      rw [if_pos (by simp; omega), lead_idx]
      obtain ⟨c, hc, h⟩ := bind_eq_ok.1 h
      rw [hc, ok_bind]
      split at h
      · rename_i hb
        rw [if_pos hb]
        split at h
        · simp [rpanic] at h
        · rename_i h0
          obtain ⟨sc, h1, h⟩ := bind_eq_ok.1 h
          rw [if_neg (by omega), show i + w.length - 1 = i - 1 + w.length by omega,
            lead_backslashes h1 (by simp), ok_bind]
          split at h
          · rename_i h2
            rw [if_pos h2, hs]
            exact lead_stringEnd h (by omega)
          · rename_i h2
            rw [if_neg h2, hs]
            cases h; rfl
      · rename_i hb
        rw [if_neg hb, hs]
        exact lead_stringEnd h (by omega)
    · rename_i hj
      rw [if_neg (by simp; omega)]
      cases h; rfl

theorem lead_numberEnd : ∀ {n n' i x : Nat}, prettyNumberEnd json n i = .ok x → n ≤ n' →
    prettyNumberEnd (w ++ json) n' (i + w.length) = .ok (x + w.length)
  | 0, _, _, _, h, _ => by simp [prettyNumberEnd, outOfFuel] at h
  | n + 1, 0, _, _, _, hn => by omega
  | n + 1, n' + 1, i, x, h, hn => by
    unfold prettyNumberEnd at h ⊢
    split at h
    · rename_i hj
      rw [if_pos (by simp; omega), lead_idx]
      obtain ⟨c, hc, h⟩ := bind_eq_ok.1 h
      rw [hc, ok_bind]
      split at h
      · rename_i hb
        rw [if_pos hb]
        cases h; rfl
      · rename_i hb
        rw [if_neg hb, show i + w.length + 1 = i + 1 + w.length by omega]
        exact lead_numberEnd h (by omega)
    · rename_i hj
      rw [if_neg (by simp; omega)]
      cases h; rfl

theorem lead_string {buf b : Bytes} {i j : Nat} {nl nl' : Int} {ok : Bool} (h : prettyString buf json i nl = .ok (b, j, nl', ok)) :
    prettyString buf (w ++ json) (i + w.length) nl = .ok (b, j + w.length, nl', ok) := by
  unfold prettyString at h ⊢
  obtain ⟨e, h1, h⟩ := bind_eq_ok.1 h
  obtain ⟨v, h2, h⟩ := bind_eq_ok.1 h
  cases h
  rw [show i + w.length + 1 = i + 1 + w.length by omega, lead_stringEnd h1 (by simp), ok_bind, lead_slice, h2]
  rfl

theorem lead_number {buf b : Bytes} {i j : Nat} {nl nl' : Int} {ok : Bool} (h : prettyNumber buf json i nl = .ok (b, j, nl', ok)) :
    prettyNumber buf (w ++ json) (i + w.length) nl = .ok (b, j + w.length, nl', ok) := by
  unfold prettyNumber at h ⊢
  obtain ⟨e, h1, h⟩ := bind_eq_ok.1 h
  obtain ⟨v, h2, h⟩ := bind_eq_ok.1 h
  cases h
  rw [show i + w.length + 1 = i + 1 + w.length by omega, lead_numberEnd h1 (by simp), ok_bind, lead_slice, h2]
  rfl

/-! ### Sorting -/

/-- The ranges of a member, its key `d` bytes further on. -/
def shiftPair (d : Nat) (p : Pair) : Pair := ⟨p.kstart + d, p.kend + d, p.vstart, p.vend⟩

def shiftKeyed (d : Nat) (p : Bytes × Pair) : Bytes × Pair := (p.1, shiftPair d p.2)

theorem pairLe_shift (d : Nat) (a b : Bytes × Pair) : pairLe (shiftKeyed d a) (shiftKeyed d b) = pairLe a b := rfl

theorem insertPair_shift (d : Nat) (a : Bytes × Pair) : ∀ l, insertPair (shiftKeyed d a) (l.map (shiftKeyed d)) = (insertPair a l).map (shiftKeyed d)
  | [] => rfl
  | b :: r => by
    rw [List.map_cons]
    unfold insertPair
    rw [pairLe_shift]
    split
    · rfl
    · rw [insertPair_shift d a r, List.map_cons]

theorem sortByKey_shift (d : Nat) : ∀ l, sortByKey (l.map (shiftKeyed d)) = (sortByKey l).map (shiftKeyed d)
  | [] => rfl
  | a :: r => by rw [List.map_cons, sortByKey, sortByKey_shift d r, insertPair_shift, sortByKey]

theorem lead_pairKey {p : Pair} {k : Bytes} (h : pairKey json p = .ok k) : pairKey (w ++ json) (shiftPair w.length p) = .ok k := by
  unfold pairKey at h ⊢
  split at h
  · simp [rpanic] at h
  · rw [if_neg (by simp only [shiftPair]; omega)]
    simp only [shiftPair]
    rw [show p.kstart + w.length + 1 = p.kstart + 1 + w.length by omega,
      show p.kend + w.length - 1 = p.kend - 1 + w.length by omega, lead_slice]
    exact h

theorem lead_keyed : ∀ {l : List Pair} {ks : List (Bytes × Pair)},
    l.mapM (fun p => pairKey json p >>= fun k => (.ok (k, p) : Res (Bytes × Pair))) = .ok ks →
    (l.map (shiftPair w.length)).mapM (fun p => pairKey (w ++ json) p >>= fun k => (.ok (k, p) : Res (Bytes × Pair))) =
      .ok (ks.map (shiftKeyed w.length))
  | [], ks, h => by cases h; rfl
  | p :: l, ks, h => by
    rw [List.mapM_cons] at h
    obtain ⟨y, h1, h⟩ := bind_eq_ok.1 h
    obtain ⟨k, h1', h1⟩ := bind_eq_ok.1 h1
    cases h1
    obtain ⟨r, h2, h⟩ := bind_eq_ok.1 h
    cases h
    rw [List.map_cons, List.mapM_cons, lead_pairKey h1', ok_bind, ok_bind, lead_keyed h2, ok_bind]
    rfl

theorem lead_sortPairList {pairs l : List Pair} (h : sortPairList json pairs = .ok l) :
    sortPairList (w ++ json) (pairs.map (shiftPair w.length)) = .ok (l.map (shiftPair w.length)) := by
  unfold sortPairList at h ⊢
  rw [List.length_map]
  split at h
  · rename_i h0
    rw [if_pos h0]; cases h; rfl
  · rename_i h0
    rw [if_neg h0]
    obtain ⟨ks, h1, h⟩ := bind_eq_ok.1 h
    cases h
    rw [lead_keyed h1, ok_bind, sortByKey_shift, List.map_map, List.map_map]
    rfl

theorem joinPairs_shift (d : Nat) (buf : Bytes) : ∀ l, joinPairs buf (l.map (shiftPair d)) = joinPairs buf l
  | [] => rfl
  | [_] => rfl
  | p :: q :: r => by
    have := joinPairs_shift d buf (q :: r)
    simp only [List.map_cons] at this ⊢
    unfold joinPairs
    rw [this]
    rfl

theorem lead_sortPairs {buf out : Bytes} {pairs : List Pair} (h : sortPairs json buf pairs = .ok out) :
    sortPairs (w ++ json) buf (pairs.map (shiftPair w.length)) = .ok out := by
  unfold sortPairs at h
  split at h
  · cases h; rfl
  · rename_i p0 r
    obtain ⟨l, h1, h⟩ := bind_eq_ok.1 h
    obtain ⟨nb, h2, h⟩ := bind_eq_ok.1 h
    have h3 := lead_sortPairList (w := w) h1
    rw [List.map_cons] at h3 ⊢
    unfold sortPairs
    simp only
    rw [h3, ok_bind, joinPairs_shift, h2, ok_bind]
    exact h

theorem lead_close {opn cls : UInt8} {a : PArgs} {tabs : Int} {i : Nat} {nl : Int} {buf : Bytes} {pairs : List Pair} {n : Nat}
    {b : Bytes} {j : Nat} {nl' : Int} {ok : Bool} (h : prettyClose json opn cls a tabs i nl buf pairs n = .ok (b, j, nl', ok)) :
    prettyClose (w ++ json) opn cls a tabs (i + w.length) nl buf (pairs.map (shiftPair w.length)) n = .ok (b, j + w.length, nl', ok) := by
  unfold prettyClose at h ⊢
  have hs : i + w.length + 1 = i + 1 + w.length := by omega
  split at h
  · rename_i hp
    rw [if_pos hp]
    obtain ⟨b1, h1, h⟩ := bind_eq_ok.1 h
    have h1' : closeSort (w ++ json) opn a buf (pairs.map (shiftPair w.length)) = .ok b1 := by
      unfold closeSort at h1 ⊢
      split at h1
      · rename_i hc; rw [if_pos hc]; exact lead_sortPairs h1
      · rename_i hc; rw [if_neg hc]; exact h1
    rw [h1', ok_bind]
    obtain ⟨⟨nl2, b2⟩, h2, h⟩ := bind_eq_ok.1 h
    rw [h2, ok_bind]
    simp only at h ⊢
    obtain ⟨l, h3, h⟩ := bind_eq_ok.1 h
    rw [h3, ok_bind, hs]
    cases h; rfl
  · rename_i hp
    rw [if_neg hp, hs]
    cases h; rfl

theorem lead_key {opn : UInt8} {a : PArgs} {buf b : Bytes} {i j k : Nat} {nl nl' : Int}
    (h : prettyKey json opn a buf i nl = .ok (b, j, nl', k)) :
    ∃ k', prettyKey (w ++ json) opn a buf (i + w.length) nl = .ok (b, j + w.length, nl', k') ∧
      (opn = c! '{' → a.sortKeys = true → k' = k + w.length) := by
  unfold prettyKey at h ⊢
  split at h
  · rename_i ho
    rw [if_pos ho]
    obtain ⟨⟨b1, i1, l1, k1⟩, h1, h⟩ := bind_eq_ok.1 h
    rw [lead_string h1, ok_bind]
    cases h
    exact ⟨_, rfl, fun _ hs => by rw [if_pos hs, if_pos hs]⟩
  · rename_i ho
    rw [if_neg ho]
    cases h
    exact ⟨_, rfl, fun h => absurd h ho⟩

theorem prettyPairs_shift {opn : UInt8} {a : PArgs} {pairs : List Pair} {d i k k' v e : Nat} (h : opn = c! '{' → a.sortKeys = true → k' = k + d) :
    prettyPairs opn a (pairs.map (shiftPair d)) (i + d) k' v e = (prettyPairs opn a pairs i k v e).map (shiftPair d) := by
  unfold prettyPairs
  by_cases hc : opn = c! '{' ∧ a.sortKeys = true
  · have hk := h hc.1 hc.2
    subst hk
    by_cases hx : a.pretty = true ∧ opn = c! '{' ∧ a.sortKeys = true ∧ i ≤ k ∧ v ≤ e
    · rw [if_pos hx, if_pos ⟨hx.1, hx.2.1, hx.2.2.1, by omega, hx.2.2.2.2⟩, List.map_append]
      rfl
    · rw [if_neg hx, if_neg (fun hy => hx ⟨hy.1, hy.2.1, hy.2.2.1, by omega, hy.2.2.2.2⟩)]
  · rw [if_neg (fun hx => hc ⟨hx.2.1, hx.2.2.1⟩), if_neg (fun hx => hc ⟨hx.2.1, hx.2.2.1⟩)]

/-! ### Arrays, objects, values -/

/-- `any'` does on `w ++ json` what `any` does on `json`. -/
def LeadAny (d : Nat) (any any' : PrettyFn) : Prop :=
  ∀ a tabs mx depth buf i nl b j nl' ok, any a tabs mx depth buf i nl = .ok (b, j, nl', ok) →
    any' a tabs mx depth buf (i + d) nl = .ok (b, j + d, nl', ok)

theorem lead_objLoop {any any' : PrettyFn} (hany : LeadAny w.length any any') {opn cls : UInt8} {a : PArgs} {tabs mx : Int} {depth : Nat} :
    ∀ {fuel fuel' i : Nat} {nl : Int} {buf : Bytes} {pairs : List Pair} {n : Nat} {b : Bytes} {j : Nat} {nl' : Int} {ok : Bool},
    prettyObjLoop any json opn cls a tabs mx depth fuel i nl buf pairs n = .ok (b, j, nl', ok) → fuel ≤ fuel' →
    prettyObjLoop any' (w ++ json) opn cls a tabs mx depth fuel' (i + w.length) nl buf (pairs.map (shiftPair w.length)) n =
      .ok (b, j + w.length, nl', ok)
  | 0, _, _, _, _, _, _, _, _, _, _, h, _ => by simp [prettyObjLoop, outOfFuel] at h
  | _ + 1, 0, _, _, _, _, _, _, _, _, _, _, hf => by omega
  | fuel + 1, fuel' + 1, i, nl, buf, pairs, n, b, j, nl', ok, h, hf => by
    have hs : i + w.length + 1 = i + 1 + w.length := by omega
    unfold prettyObjLoop at h ⊢
    split at h
    · rename_i hlt
      rw [if_pos (by simp; omega), lead_idx]
      obtain ⟨c, hc, h⟩ := bind_eq_ok.1 h
      rw [hc, ok_bind]
      split at h
      · rename_i h1
        rw [if_pos h1, hs]; exact lead_objLoop hany h (by omega)
      rename_i h1
      rw [if_neg h1]
      split at h
      · rename_i h2
        rw [if_pos h2]; exact lead_close h
      rename_i h2
      rw [if_neg h2]
      split at h
      · rename_i h3
        rw [if_pos h3]
        obtain ⟨⟨nl1, b1⟩, g1, h⟩ := bind_eq_ok.1 h
        rw [g1, ok_bind]
        simp only at h ⊢
        obtain ⟨⟨b2, i2, nl2, k2⟩, g2, h⟩ := bind_eq_ok.1 h
        obtain ⟨k', g2', hk⟩ := lead_key (w := w) g2
        rw [g2', ok_bind]
        simp only at h ⊢
        obtain ⟨⟨b3, i3, nl3, ok3⟩, g3, h⟩ := bind_eq_ok.1 h
        rw [hany _ _ _ _ _ _ _ _ _ _ _ g3, ok_bind]
        simp only at h ⊢
        split at h
        · rename_i h4
          rw [if_pos h4]; cases h; rfl
        rename_i h4
        rw [if_neg h4]
        split at h
        · simp [rpanic] at h
        rename_i h5
        rw [if_neg (by omega), prettyPairs_shift hk, show i3 + w.length - 1 + 1 = i3 - 1 + 1 + w.length by omega]
        exact lead_objLoop hany h (by omega)
      · rename_i h3
        rw [if_neg h3, hs]; exact lead_objLoop hany h (by omega)
    · rename_i hlt
      rw [if_neg (by simp; omega)]
      cases h; rfl

theorem lead_obj {any any' : PrettyFn} (hany : LeadAny w.length any any') :
    ∀ {k : Nat} {opn cls : UInt8} {a : PArgs} {tabs mx : Int} {depth : Nat} {buf : Bytes} {i : Nat} {nl : Int} {b : Bytes} {j : Nat} {nl' : Int} {ok : Bool},
    prettyObj any json k opn cls a tabs mx depth buf i nl = .ok (b, j, nl', ok) →
    prettyObj any' (w ++ json) k opn cls a tabs mx depth buf (i + w.length) nl = .ok (b, j + w.length, nl', ok)
  | 0, _, _, _, _, _, _, _, _, _, _, _, _, _, h => by simp [prettyObj, outOfFuel] at h
  | k + 1, opn, cls, a, tabs, mx, depth, buf, i, nl, b, j, nl', ok, h => by
    have hs : i + w.length + 1 = i + 1 + w.length := by omega
    have body : ∀ {b : Bytes} {j : Nat} {nl' : Int} {ok : Bool},
        prettyObjLoop any json opn cls a tabs mx depth (json.length + 1) (i + 1) nl (buf ++ [opn]) [] 0 = .ok (b, j, nl', ok) →
        prettyObjLoop any' (w ++ json) opn cls a tabs mx depth ((w ++ json).length + 1) (i + w.length + 1) nl (buf ++ [opn]) [] 0 =
          .ok (b, j + w.length, nl', ok) := by
      intro b j nl' ok h
      rw [hs]
      exact lead_objLoop hany h (by simp)
    unfold prettyObj at h ⊢
    split at h
    · rename_i h1
      rw [if_pos h1, lead_sliceFrom]
      obtain ⟨r, g1, h⟩ := bind_eq_ok.1 h
      rw [g1, ok_bind]
      obtain ⟨f, g2, h⟩ := bind_eq_ok.1 h
      rw [g2, ok_bind, List.length_append, Nat.add_comm w.length]
      cases h; rfl
    rename_i h1
    rw [if_neg h1]
    simp only at h ⊢
    split at h
    · rename_i h2
      rw [if_pos h2]
      split at h
      · rename_i h3
        rw [if_pos h3]
        split at h
        · rename_i h4
          rw [if_pos h4]
          obtain ⟨⟨b1, i1, n1, ok1⟩, g1, h⟩ := bind_eq_ok.1 h
          rw [lead_obj hany g1, ok_bind]
          simp only at h ⊢
          split at h
          · rename_i h5
            rw [if_pos h5]; cases h; rfl
          · rename_i h5
            rw [if_neg h5]; exact body h
        · rename_i h4
          rw [if_neg h4]; exact body h
      rename_i h3
      rw [if_neg h3]
      split at h
      · rename_i h4
        rw [if_pos h4]; cases h; rfl
      · rename_i h4
        rw [if_neg h4]; exact body h
    · rename_i h2
      rw [if_neg h2]; exact body h

theorem lead_anyLoop {any any' : PrettyFn} (hany : LeadAny w.length any any') {a : PArgs} {tabs mx : Int} {depth : Nat} {buf : Bytes} {nl : Int} :
    ∀ {n n' i : Nat} {b : Bytes} {j : Nat} {nl' : Int} {ok : Bool},
    prettyAnyLoop any json a tabs mx depth buf nl n i = .ok (b, j, nl', ok) → n ≤ n' →
    prettyAnyLoop any' (w ++ json) a tabs mx depth buf nl n' (i + w.length) = .ok (b, j + w.length, nl', ok)
  | 0, _, _, _, _, _, _, h, _ => by simp [prettyAnyLoop, outOfFuel] at h
  | _ + 1, 0, _, _, _, _, _, _, hf => by omega
  | n + 1, n' + 1, i, b, j, nl', ok, h, hf => by
    have hs : i + w.length + 1 = i + 1 + w.length := by omega
    unfold prettyAnyLoop at h ⊢
    split at h
    · rename_i hlt
      rw [if_pos (by simp; omega), lead_idx]
      obtain ⟨c, hc, h⟩ := bind_eq_ok.1 h
      rw [hc, ok_bind]
      split at h
      · rename_i h1
        rw [if_pos h1, hs]; exact lead_anyLoop hany h (by omega)
      rename_i h1
      rw [if_neg h1]
      split at h
      · rename_i h2
        rw [if_pos h2]; exact lead_string h
      rename_i h2
      rw [if_neg h2]
      split at h
      · rename_i h3
        rw [if_pos h3]; exact lead_number h
      rename_i h3
      rw [if_neg h3]
      split at h
      · rename_i h4
        rw [if_pos h4]; exact lead_obj hany h
      rename_i h4
      rw [if_neg h4]
      split at h
      · rename_i h5
        rw [if_pos h5]; exact lead_obj hany h
      rename_i h5
      rw [if_neg h5]
      split at h
      · rename_i h6
        rw [if_pos h6, show i + w.length + 4 = i + 4 + w.length by omega]; cases h; rfl
      rename_i h6
      rw [if_neg h6]
      split at h
      · rename_i h7
        rw [if_pos h7, show i + w.length + 5 = i + 5 + w.length by omega]; cases h; rfl
      rename_i h7
      rw [if_neg h7]
      split at h
      · rename_i h8
        rw [if_pos h8, show i + w.length + 4 = i + 4 + w.length by omega]; cases h; rfl
      · rename_i h8
        rw [if_neg h8, hs]; exact lead_anyLoop hany h (by omega)
    · rename_i hlt
      rw [if_neg (by simp; omega)]
      cases h; rfl

theorem lead_any : ∀ {d d' : Nat}, d ≤ d' → LeadAny w.length (prettyAny json d) (prettyAny (w ++ json) d')
  | 0, _, _ => by
    intro a tabs mx depth buf i nl b j nl' ok h
    simp [prettyAny, outOfFuel] at h
  | _ + 1, 0, hd => by omega
  | d + 1, d' + 1, hd => by
    intro a tabs mx depth buf i nl b j nl' ok h
    unfold prettyAny at h ⊢
    exact lead_anyLoop (lead_any (by omega)) h (by simp)

/-- Blanks are passed over. -/
theorem anyLoop_blanks (any : PrettyFn) (a : PArgs) (tabs mx : Int) (depth : Nat) (buf : Bytes) (nl : Int) {src : Bytes} (n : Nat) :
    ∀ {blanks : Bytes} {i : Nat} {t : Bytes}, (∀ c ∈ blanks, c ≤ c! ' ') → At src i (blanks ++ t) →
    prettyAnyLoop any src a tabs mx depth buf nl (n + blanks.length) i = prettyAnyLoop any src a tabs mx depth buf nl n (i + blanks.length)
  | [], _, _, _, _ => rfl
  | c :: r, i, t, hb, h => by
    rw [List.length_cons, ← Nat.add_assoc, prettyAnyLoop, if_pos h.lt, h.idx, ok_bind, if_pos (hb c (by simp)),
      anyLoop_blanks any a tabs mx depth buf nl n (fun x hx => hb x (by simp [hx])) h.cons]
    congr 1
    omega

end

/-- `pretty` passes over blanks in front. -/
theorem pretty_lead {w : Bytes} (hw : ∀ c ∈ w, c ≤ c! ' ') (json : Bytes) (o : PrettyOptions) :
    prettyOptions (w ++ json) o = prettyOptions json o := by
  obtain ⟨b, h⟩ := prettyOptions_ok json o
  rw [h]
  unfold prettyOptions at h ⊢
  simp only at h ⊢
  obtain ⟨⟨b1, i1, n1, ok1⟩, h1, h⟩ := bind_eq_ok.1 h
  have h2 : prettyAny (w ++ json) ((w ++ json).length + 1) ⟨true, o.width, o.pfx, o.indent, o.sortKeys⟩ 0 (-1) 0
      (if o.pfx.length ≠ 0 then o.pfx else []) 0 0 = .ok (b1, i1 + w.length, n1, ok1) := by
    unfold prettyAny at h1 ⊢
    have e : (w ++ json).length + 1 = json.length + 1 + w.length := by rw [List.length_append]; omega
    rw [e, anyLoop_blanks _ _ _ _ _ _ _ _ hw (At.zero _)]
    exact lead_anyLoop (lead_any (by simp)) h1 (Nat.le_refl _)
  rw [h2, ok_bind]
  exact h

end Gjson
