import Verif.Lemmas.SizeMods
import Verif.Lemmas.PrettyOk
import Verif.Lemmas.Piece
/-
How long the output of `pretty` can be, on any text.
-/
namespace Gjson

open Spec

/-- The most that stands before an element besides its own text. -/
def lineCost (P I : Nat) : Nat := 5 + P + 500 * I

/-- The options are no longer than `P` and `I`. -/
def Lim (P I : Nat) (a : PArgs) : Prop := a.pfx.length ≤ P ∧ a.indent.length ≤ I

/-- What was written is paid for by the bytes passed, with room for one more line if
there was anything to read; an attempt that was given up does not count. -/
def PSize (json : Bytes) (W : Nat) (mx : Int) (b i : Nat) (r : PRes) : Prop :=
  ∀ b' i' nl' ok, r = .ok (b', i', nl', ok) → (mx = -1 ∨ ok = true) →
    b ≤ b'.length ∧ (i ≤ i' ∧ i' ≤ max i (json.length + 4)) ∧ b'.length + (W + 1) * i + (if i < json.length then W else 0) ≤ b + (W + 1) * i'

/-- Passing `d` bytes pays for them and one line. -/
theorem pays {W i j : Nat} (h : i < j) : (j - i) + (W + 1) * i + W ≤ (W + 1) * j := by
  obtain ⟨d, rfl⟩ : ∃ d, j = i + 1 + d := ⟨j - (i + 1), by omega⟩
  rw [Nat.mul_add, Nat.mul_add, Nat.mul_one]
  have : d ≤ (W + 1) * d := Nat.le_mul_of_pos_left _ (by omega)
  omega

theorem repeatBytes_length (b : Bytes) : ∀ n, (repeatBytes n b).length = n * b.length
  | 0 => by simp [repeatBytes]
  | n + 1 => by rw [repeatBytes, List.length_append, repeatBytes_length b n, Nat.succ_mul]; omega

theorem extendTabs_len {P I : Nat} {buf pfx indent : Bytes} {tabs : Int} (hp : pfx.length ≤ P) (hi : indent.length ≤ I) (ht : tabs ≤ 500) :
    (extendTabs buf pfx indent tabs).length ≤ buf.length + P + 500 * I := by
  unfold extendTabs
  rw [List.length_append, repeatBytes_length]
  have h1 : tabs.toNat * indent.length ≤ 500 * I := Nat.mul_le_mul (by omega) hi
  split
  · rw [List.length_append]; omega
  · omega

/-! ### Sorting members -/

/-- The bytes of the members, with two more for each. -/
def span : List Pair → Nat
  | [] => 0
  | p :: r => (p.vend - p.vstart) + 2 + span r

theorem span_append (a b : List Pair) : span (a ++ b) = span a + span b := by
  induction a with
  | nil => simp [span]
  | cons v r ih => rw [List.cons_append, span, span, ih]; omega

theorem span_perm {a b : List Pair} (h : a.Perm b) : span a = span b := by
  induction h with
  | nil => rfl
  | cons _ _ ih => simp only [span, ih]
  | swap _ _ _ => simp only [span]; omega
  | trans _ _ h1 h2 => rw [h1, h2]

theorem mapM_snd {g : Pair → Res Bytes} : ∀ {l : List Pair} {ks : List (Bytes × Pair)},
    l.mapM (fun p => g p >>= fun k => (.ok (k, p) : Res (Bytes × Pair))) = .ok ks → ks.map Prod.snd = l
  | [], ks, h => by cases h; rfl
  | p :: l, ks, h => by
    rw [List.mapM_cons] at h
    obtain ⟨y, h1, h⟩ := bind_eq_ok.1 h
    obtain ⟨k, _, h1⟩ := bind_eq_ok.1 h1
    cases h1
    obtain ⟨r, h2, h⟩ := bind_eq_ok.1 h
    cases h
    rw [List.map_cons, mapM_snd h2]

theorem sortPairList_span {json : Bytes} {pairs l : List Pair} (h : sortPairList json pairs = .ok l) : span l = span pairs := by
  unfold sortPairList at h
  split at h
  · cases h; rfl
  · obtain ⟨ks, h1, h⟩ := bind_eq_ok.1 h
    cases h
    have := mapM_snd h1
    rw [← this]
    exact span_perm ((sortByKey_perm ks).map Prod.snd)

theorem joinPairs_span {buf : Bytes} : ∀ {l : List Pair} {r : Bytes}, joinPairs buf l = .ok r → r.length ≤ span l - 2
  | [], r, h => by cases h; simp
  | [p], r, h => by
    have := slice_len h
    simp only [span]; omega
  | p :: q :: l, r, h => by
    unfold joinPairs at h
    obtain ⟨v, h1, h⟩ := bind_eq_ok.1 h
    obtain ⟨s, h2, h⟩ := bind_eq_ok.1 h
    cases h
    have := slice_len h1
    have := joinPairs_span h2
    rw [span]
    simp only [span] at this
    simp only [span, List.length_append, List.length_cons, List.length_nil]
    omega

/-- The members recorded lie in the buffer, one after the other, two bytes apart. -/
def PairRows (b0 hi : Nat) (ps : List Pair) : Prop :=
  ps = [] ∨ ∃ p0 rest, ps = p0 :: rest ∧ b0 ≤ p0.vstart ∧ p0.vstart ≤ hi ∧ p0.vstart + span ps ≤ hi + 2

theorem PairRows.mono {b0 hi hi' : Nat} {ps : List Pair} (h : PairRows b0 hi ps) (hh : hi ≤ hi') : PairRows b0 hi' ps := by
  rcases h with h | ⟨p0, rest, h1, h2, h3, h4⟩
  · exact .inl h
  · exact .inr ⟨p0, rest, h1, h2, by omega, by omega⟩

theorem PairRows.snoc {b0 mid hi : Nat} {ps : List Pair} (h : PairRows b0 mid ps) {p : Pair} (h1 : ps ≠ [] → mid + 2 ≤ p.vstart) (h2 : b0 ≤ p.vstart)
    (h3 : p.vstart ≤ p.vend) (h4 : p.vend ≤ hi) : PairRows b0 hi (ps ++ [p]) := by
  rcases h with rfl | ⟨p0, rest, g1, g2, g3, g4⟩
  · exact .inr ⟨p, [], rfl, h2, by omega, by simp [span]; omega⟩
  · have := h1 (by rw [g1]; simp)
    refine .inr ⟨p0, rest ++ [p], by rw [g1]; rfl, g2, by omega, ?_⟩
    rw [span_append]
    simp only [span]
    omega

theorem sortPairs_len {json buf out : Bytes} {b0 : Nat} {pairs : List Pair} (hr : PairRows b0 buf.length pairs) (hb : b0 ≤ buf.length)
    (h : sortPairs json buf pairs = .ok out) : out.length ≤ buf.length ∧ b0 ≤ out.length := by
  unfold sortPairs at h
  split at h
  · cases h; exact ⟨Nat.le_refl _, hb⟩
  · rename_i p r
    obtain ⟨l, h1, h⟩ := bind_eq_ok.1 h
    obtain ⟨nb, h2, h⟩ := bind_eq_ok.1 h
    cases h
    have e1 := sortPairList_span h1
    have e2 := joinPairs_span h2
    rcases hr with hr | ⟨p0, rest, g1, g2, g3, g4⟩
    · simp at hr
    · cases g1
      rw [List.length_append, List.length_take]
      have : 2 ≤ span (p :: r) := by simp only [span]; omega
      omega

/-! ### The parts of a line -/

theorem prettySep_len (opn : UInt8) (a : PArgs) (buf : Bytes) (n : Nat) : (prettySep opn a buf n).length ≤ buf.length + 2 := by
  unfold prettySep
  split
  · split <;> simp
  · omega

theorem prettyLine_len {a : PArgs} {nl nl' : Int} {buf b : Bytes} (h : prettyLine a nl buf = .ok (nl', b)) :
    buf.length ≤ b.length ∧ b.length ≤ buf.length + 1 := by
  unfold prettyLine at h
  split at h
  · obtain ⟨l, h1, h⟩ := bind_eq_ok.1 h
    cases h
    have : 0 < buf.length := by
      unfold lastByte at h1
      split at h1
      · simp [rpanic] at h1
      · omega
    split <;> (simp; try omega)
  · cases h; omega

/-- Between two members stand a comma and a line break. -/
theorem prettyLine_member {a : PArgs} {nl nl' : Int} {buf b : Bytes} {n : Nat} (ha : a.pretty = true) (hn : n > 0)
    (h : prettyLine a nl (prettySep (c! '{') a buf n) = .ok (nl', b)) : buf.length + 2 ≤ b.length := by
  have e : prettySep (c! '{') a buf n = buf ++ [c! ','] := by
    unfold prettySep
    rw [if_pos hn, if_neg (by intro h; exact absurd h.2 (by decide))]
  rw [e] at h
  unfold prettyLine at h
  rw [if_pos ha] at h
  obtain ⟨l, h1, h⟩ := bind_eq_ok.1 h
  have hl : l = c! ',' := by
    unfold lastByte at h1
    rw [if_neg (by simp)] at h1
    have := (show At (buf ++ [c! ',']) buf.length [c! ','] from ⟨by simp, by simp⟩).idx
    rw [show (buf ++ [c! ',']).length - 1 = buf.length by simp, this] at h1
    cases h1; rfl
  cases h
  rw [if_neg (by rw [hl]; decide)]
  simp

theorem prettyKey_len {json : Bytes} {opn : UInt8} {a : PArgs} {buf b : Bytes} {i j k : Nat} {nl nl' : Int} {c : UInt8}
    (hc : idx json i = .ok c) (hq : opn = c! '{' → c = c! '"') (h : prettyKey json opn a buf i nl = .ok (b, j, nl', k)) :
    buf.length ≤ b.length ∧ ((opn = c! '{' ∧ (i < j ∧ j ≤ json.length) ∧ b.length ≤ buf.length + (j - i) + 2) ∨ (opn ≠ c! '{' ∧ j = i ∧ b = buf)) := by
  unfold prettyKey at h
  split at h
  · rename_i ho
    obtain ⟨⟨b1, i1, l1, k1⟩, h1, h⟩ := bind_eq_ok.1 h
    obtain ⟨b', e, g1, g2, g3, g4, g5⟩ := prettyString_ok buf nl (by rw [hc, hq ho])
    rw [g1] at h1
    cases h1
    unfold prettyString at g1
    obtain ⟨e', _, g1⟩ := bind_eq_ok.1 g1
    obtain ⟨v, g6, g1⟩ := bind_eq_ok.1 g1
    cases g1
    have := slice_len g6
    cases h
    constructor
    · split <;> simp
    · refine .inl ⟨ho, ⟨g3, by omega⟩, ?_⟩
      split <;> simp <;> omega
  · rename_i ho
    cases h
    exact ⟨Nat.le_refl _, .inr ⟨ho, rfl, rfl⟩⟩

theorem prettyClose_len {json buf : Bytes} {P I : Nat} {opn cls : UInt8} {a : PArgs} {tabs : Int} {i : Nat} {nl : Int} {pairs : List Pair} {n b0 : Nat}
    (ha : Lim P I a) (ht : tabs ≤ 500) (hr : PairRows b0 buf.length pairs) (hb : b0 ≤ buf.length) {b' : Bytes} {i' : Nat} {nl' : Int} {ok : Bool}
    (h : prettyClose json opn cls a tabs i nl buf pairs n = .ok (b', i', nl', ok)) :
    b0 ≤ b'.length ∧ i' = i + 1 ∧ b'.length ≤ buf.length + (2 + P + 500 * I) := by
  unfold prettyClose at h
  split at h
  · obtain ⟨b1, h1, h⟩ := bind_eq_ok.1 h
    have g1 : b1.length ≤ buf.length ∧ b0 ≤ b1.length := by
      unfold closeSort at h1
      split at h1
      · exact sortPairs_len hr hb h1
      · cases h1; exact ⟨Nat.le_refl _, hb⟩
    obtain ⟨⟨nl2, b2⟩, h2, h⟩ := bind_eq_ok.1 h
    have g2 : b1.length ≤ b2.length ∧ b2.length ≤ b1.length + 1 := by
      unfold closeLine at h2
      split at h2
      · obtain ⟨l, _, h2⟩ := bind_eq_ok.1 h2
        cases h2
        split <;> simp
      · cases h2; omega
    simp only at h
    obtain ⟨l, _, h⟩ := bind_eq_ok.1 h
    cases h
    have g3 := extendTabs_len (buf := b2) ha.1 ha.2 ht
    have g4 := extendTabs_le b2 a.pfx a.indent tabs
    refine ⟨?_, rfl, ?_⟩
    · split <;> rw [List.length_append] <;> omega
    · split <;> rw [List.length_append] <;> simp only [List.length_cons, List.length_nil] <;> omega
  · cases h
    refine ⟨?_, rfl, ?_⟩ <;> rw [List.length_append] <;> simp only [List.length_cons, List.length_nil] <;> omega

/-! ### Arrays, objects, values -/

/-- `extend_pretty_any` keeps to the bound. -/
def AnySize (json : Bytes) (P I : Nat) (any : PrettyFn) : Prop :=
  ∀ a tabs mx (depth : Nat) buf i nl, Lim P I a → tabs ≤ (depth : Int) → depth < 500 →
    PSize json (lineCost P I) mx buf.length i (any a tabs mx depth buf i nl)

theorem prettyObjLoop_size {json : Bytes} {P I : Nat} {any : PrettyFn} (hany : AnySize json P I any) {opn cls : UInt8}
    {a : PArgs} (ha : Lim P I a) {tabs mx : Int} {depth : Nat} (ht : tabs + 1 ≤ (depth : Int)) (hd : depth < 500) {b0 : Nat} :
    ∀ (fuel i : Nat) (nl : Int) (buf : Bytes) (pairs : List Pair) (n : Nat), b0 ≤ buf.length → PairRows b0 buf.length pairs →
    (pairs ≠ [] → n > 0) →
    ∀ b' i' nl' ok, prettyObjLoop any json opn cls a tabs mx depth fuel i nl buf pairs n = .ok (b', i', nl', ok) → (mx = -1 ∨ ok = true) →
    b0 ≤ b'.length ∧ (i ≤ i' ∧ i' ≤ max i (json.length + 4)) ∧ b'.length + (lineCost P I + 1) * i ≤ buf.length + (lineCost P I + 1) * i'
  | 0, _, _, _, _, _, _, _, _, _, _, _, _, h, _ => by simp [prettyObjLoop, outOfFuel] at h
  | fuel + 1, i, nl, buf, pairs, n, hb, hr, hn, b', i', nl', ok, h, hok => by
    have skip : i < json.length → prettyObjLoop any json opn cls a tabs mx depth fuel (i + 1) nl buf pairs n = .ok (b', i', nl', ok) →
        b0 ≤ b'.length ∧ (i ≤ i' ∧ i' ≤ max i (json.length + 4)) ∧ b'.length + (lineCost P I + 1) * i ≤ buf.length + (lineCost P I + 1) * i' := by
      intro hi h
      obtain ⟨h1, h2, h3⟩ := prettyObjLoop_size hany ha ht hd fuel _ _ _ _ _ hb hr hn _ _ _ _ h hok
      rw [Nat.mul_succ] at h3
      exact ⟨h1, by omega, by omega⟩
    unfold prettyObjLoop at h
    split at h
    · rename_i hlt
      obtain ⟨c, hc, h⟩ := bind_eq_ok.1 h
      split at h
      · exact skip hlt h
      split at h
      · obtain ⟨h1, h2, h3⟩ := prettyClose_len ha (by omega) hr hb h
        subst h2
        refine ⟨h1, by omega, ?_⟩
        rw [Nat.mul_succ]
        unfold lineCost at *
        omega
      split at h
      · rename_i hopn
        obtain ⟨⟨nl1, b1⟩, h1, h⟩ := bind_eq_ok.1 h
        have s0 := prettySep_len opn a buf n
        have s0' := prettySep_le opn a buf n
        have s1 := prettyLine_len h1
        simp only at h
        have s2 : (prettyIndent a tabs b1).length ≤ b1.length + P + 500 * I := by
          unfold prettyIndent
          split
          · exact extendTabs_len ha.1 ha.2 (by omega)
          · omega
        have s2' := prettyIndent_le a tabs b1
        obtain ⟨⟨b2, i2, nl2, k2⟩, h2, h⟩ := bind_eq_ok.1 h
        obtain ⟨s3, s4⟩ := prettyKey_len hc (fun ho => by
          rcases hopn with h | h
          · rw [ho] at h; exact absurd h (by decide)
          · exact h) h2
        simp only at h
        obtain ⟨⟨b3, i3, nl3, ok3⟩, h3, h⟩ := bind_eq_ok.1 h
        have s5 := hany a (tabs + 1) mx depth b2 i2 nl2 ha ht hd b3 i3 nl3 ok3 h3
        simp only at h
        split at h
        · rename_i hno
          cases h
          rcases hok with hok | hok
          · exact absurd hok hno.1
          · exact absurd hok (by decide)
        rename_i hyes
        have hyes : mx = -1 ∨ ok3 = true := by
          by_cases hm : mx = -1
          · exact .inl hm
          · right
            cases ok3
            · exact absurd ⟨hm, rfl⟩ hyes
            · rfl
        obtain ⟨t1, t2, t3⟩ := s5 hyes
        have total : (i < i3 ∧ i3 ≤ max i (json.length + 4)) ∧ b3.length + (lineCost P I + 1) * i ≤ buf.length + (lineCost P I + 1) * i3 := by
          rcases s4 with ⟨_, s6, s7⟩ | ⟨_, s6, s7⟩
          · have := pays (W := lineCost P I) s6.1
            refine ⟨by omega, ?_⟩
            unfold lineCost at *
            split at t3 <;> omega
          · subst s6
            rw [if_pos hlt] at t3
            rw [s7] at t3
            refine ⟨⟨?_, by omega⟩, by unfold lineCost at *; omega⟩
            rcases Nat.lt_or_ge i2 i3 with h' | h'
            · exact h'
            · have : i2 = i3 := by omega
              subst this
              have e1 := s7 ▸ t1
              unfold lineCost at *
              omega
        split at h
        · simp [rpanic] at h
        · rw [show i3 - 1 + 1 = i3 by omega] at h
          have hr' : PairRows b0 b3.length (prettyPairs opn a pairs i k2 b1.length b3.length) := by
            unfold prettyPairs
            split
            · rename_i hcond
              obtain ⟨c1, c2, c3, c4, c5⟩ := hcond
              refine hr.snoc ?_ ?_ c5 (Nat.le_refl _)
              · intro hne
                subst c2
                exact prettyLine_member c1 (hn hne) h1
              · simp only; omega
            · exact hr.mono (by omega)
          obtain ⟨u1, u2, u3⟩ := prettyObjLoop_size hany ha ht hd fuel _ _ _ _ _ (by omega) hr' (by omega) _ _ _ _ h hok
          exact ⟨u1, by omega, by omega⟩
      · exact skip hlt h
    · cases h
      exact ⟨hb, by omega, Nat.le_refl _⟩

theorem prettyObj_size {json : Bytes} {P I : Nat} {any : PrettyFn} (hany : AnySize json P I any) :
    ∀ (k : Nat) (opn cls : UInt8) (a : PArgs) (tabs mx : Int) (depth : Nat) (buf : Bytes) (i : Nat) (nl : Int),
    Lim P I a → tabs + 1 ≤ (depth : Int) → 0 < depth → depth ≤ 500 → i < json.length →
    PSize json (lineCost P I) mx buf.length i (prettyObj any json k opn cls a tabs mx depth buf i nl)
  | 0, _, _, _, _, _, _, _, _, _, _, _, _, _, _ => by intro _ _ _ _ h; simp [prettyObj, outOfFuel] at h
  | k + 1, opn, cls, a, tabs, mx, depth, buf, i, nl, ha, ht, h0, hd, hi => by
    intro b' i' nl' ok h hok
    unfold prettyObj at h
    split at h
    · obtain ⟨r, h1, h⟩ := bind_eq_ok.1 h
      obtain ⟨f, h2, h⟩ := bind_eq_ok.1 h
      cases h
      have e1 := ugly_len h2
      have e2 : r.length = json.length - i := by
        unfold sliceFrom at h1
        split at h1
        · cases h1; simp
        · simp at h1
      have := pays (W := lineCost P I) hi
      rw [if_pos hi]
      simp only [List.length_append]
      exact ⟨by omega, by omega, by omega⟩
    rename_i hne
    have hd' : depth < 500 := by unfold MAX_DEPTH at hne; omega
    have hbody : ∀ b' i' nl' ok, prettyObjLoop any json opn cls a tabs mx depth (json.length + 1) (i + 1) nl (buf ++ [opn]) [] 0 = .ok (b', i', nl', ok) →
        (mx = -1 ∨ ok = true) → buf.length ≤ b'.length ∧ (i ≤ i' ∧ i' ≤ max i (json.length + 4)) ∧
          b'.length + (lineCost P I + 1) * i + (if i < json.length then lineCost P I else 0) ≤ buf.length + (lineCost P I + 1) * i' := by
      intro b' i' nl' ok h hok
      obtain ⟨u1, u2, u3⟩ := prettyObjLoop_size (b0 := buf.length) hany ha ht hd' (json.length + 1) (i + 1) nl (buf ++ [opn]) [] 0
        (by simp) (.inl rfl) (fun h => absurd rfl h) _ _ _ _ h hok
      rw [if_pos hi]
      rw [Nat.mul_succ, List.length_append] at u3
      simp only [List.length_cons, List.length_nil] at u3
      exact ⟨u1, by omega, by omega⟩
    simp only at h
    split at h
    · split at h
      · split at h
        · obtain ⟨⟨b1, i1, nl1, ok1⟩, h1, h⟩ := bind_eq_ok.1 h
          have := prettyObj_size hany k (c! '[') (c! ']') { a with pretty := false, indent := [] } 0 _ depth buf i 0
            ⟨ha.1, by simp⟩ (by omega) h0 hd hi _ _ _ _ h1
          simp only at h
          split at h
          · rename_i hk
            cases h; exact this (.inr hk.1)
          · exact hbody _ _ _ _ h hok
        · exact hbody _ _ _ _ h hok
      · split at h
        · rename_i hm
          cases h
          rcases hok with hok | hok
          · exact absurd hok hm.1
          · cases hok
        · exact hbody _ _ _ _ h hok
    · exact hbody _ _ _ _ h hok

theorem prettyAnyLoop_size {json : Bytes} {P I : Nat} {any : PrettyFn} (hany : AnySize json P I any) {a : PArgs} (ha : Lim P I a)
    {tabs mx : Int} {depth : Nat} (ht : tabs ≤ (depth : Int)) (hd : depth < 500) {buf : Bytes} {nl : Int} :
    ∀ (n i : Nat), PSize json (lineCost P I) mx buf.length i (prettyAnyLoop any json a tabs mx depth buf nl n i)
  | 0, _ => by intro _ _ _ _ h; simp [prettyAnyLoop, outOfFuel] at h
  | n + 1, i => by
    intro b' i' nl' ok h hok
    have skip : i < json.length → prettyAnyLoop any json a tabs mx depth buf nl n (i + 1) = .ok (b', i', nl', ok) →
        buf.length ≤ b'.length ∧ (i ≤ i' ∧ i' ≤ max i (json.length + 4)) ∧
          b'.length + (lineCost P I + 1) * i + (if i < json.length then lineCost P I else 0) ≤ buf.length + (lineCost P I + 1) * i' := by
      intro hi h
      obtain ⟨u1, u2, u3⟩ := prettyAnyLoop_size hany ha ht hd n (i + 1) _ _ _ _ h hok
      rw [if_pos hi]
      rw [Nat.mul_succ] at u3
      exact ⟨u1, by omega, by omega⟩
    unfold prettyAnyLoop at h
    split at h
    · rename_i hi
      have lit : ∀ (w : Bytes) (k : Nat), w.length = k → (1 ≤ k ∧ k ≤ 5) → (.ok (buf ++ w, i + k, nl, true) : PRes) = .ok (b', i', nl', ok) →
          buf.length ≤ b'.length ∧ (i ≤ i' ∧ i' ≤ max i (json.length + 4)) ∧
          b'.length + (lineCost P I + 1) * i + (if i < json.length then lineCost P I else 0) ≤ buf.length + (lineCost P I + 1) * i' := by
        intro w k hk h1 h
        cases h
        have := pays (W := lineCost P I) (show i < i + k by omega)
        rw [if_pos hi, List.length_append]
        exact ⟨by omega, by omega, by omega⟩
      have cut : ∀ {v : Bytes} {e : Nat}, i < e ∧ e ≤ json.length → v.length = e - i → (.ok (buf ++ v, e, nl, true) : PRes) = .ok (b', i', nl', ok) →
          buf.length ≤ b'.length ∧ (i ≤ i' ∧ i' ≤ max i (json.length + 4)) ∧
          b'.length + (lineCost P I + 1) * i + (if i < json.length then lineCost P I else 0) ≤ buf.length + (lineCost P I + 1) * i' := by
        intro v e he hv h
        cases h
        have := pays (W := lineCost P I) he.1
        rw [if_pos hi, List.length_append]
        exact ⟨by omega, by omega, by omega⟩
      obtain ⟨c, hc, h⟩ := bind_eq_ok.1 h
      split at h; · exact skip hi h
      split at h
      · rename_i hq
        obtain ⟨b1, e, g1, _, g3, _⟩ := prettyString_ok buf nl (by rw [hc, hq])
        unfold prettyString at h g1
        obtain ⟨e1, h1, h⟩ := bind_eq_ok.1 h
        obtain ⟨v, h2, h⟩ := bind_eq_ok.1 h
        rw [h1] at g1
        simp only [ok_bind] at g1
        rw [h2] at g1
        cases g1
        have := slice_len h2
        exact cut ⟨g3, by omega⟩ (by omega) h
      split at h
      · unfold prettyNumber at h
        obtain ⟨e1, h1, h⟩ := bind_eq_ok.1 h
        obtain ⟨v, h2, h⟩ := bind_eq_ok.1 h
        obtain ⟨e, g1, g2, _⟩ := prettyNumberEnd_ok (json := json) (json.length + 1) (i + 1) (by omega) (by omega)
        rw [g1] at h1
        cases h1
        have := slice_len h2
        exact cut (by omega) (by omega) h
      split at h; · exact prettyObj_size hany _ _ _ _ _ _ _ _ _ _ ha (by push_cast; omega) (by omega) (by omega) hi _ _ _ _ h hok
      split at h; · exact prettyObj_size hany _ _ _ _ _ _ _ _ _ _ ha (by push_cast; omega) (by omega) (by omega) hi _ _ _ _ h hok
      split at h; · exact lit _ 4 rfl (by decide) h
      split at h; · exact lit _ 5 rfl (by decide) h
      split at h; · exact lit _ 4 rfl (by decide) h
      exact skip hi h
    · rename_i hi
      cases h
      rw [if_neg hi]
      exact ⟨Nat.le_refl _, by omega, Nat.le_refl _⟩

theorem prettyAny_size (json : Bytes) (P I : Nat) : ∀ d, AnySize json P I (prettyAny json d)
  | 0 => fun _ _ _ _ _ _ _ _ _ _ => by intro _ _ _ _ h; simp [prettyAny, outOfFuel] at h
  | d + 1 => fun _ _ _ _ _ _ _ ha ht hd => prettyAnyLoop_size (prettyAny_size json P I d) ha ht hd _ _

theorem prettyOptions_len {json out : Bytes} {o : PrettyOptions} {P I : Nat} (hp : o.pfx.length ≤ P) (hi : o.indent.length ≤ I)
    (h : prettyOptions json o = .ok out) : out.length ≤ P + (6 + P + 500 * I) * (json.length + 4) + 1 := by
  unfold prettyOptions at h
  obtain ⟨⟨b, i, nl, ok⟩, h1, h⟩ := bind_eq_ok.1 h
  obtain ⟨_, g2, g3⟩ := prettyAny_size json P I _ ⟨true, o.width, o.pfx, o.indent, o.sortKeys⟩ 0 (-1) 0 _ 0 0 ⟨hp, hi⟩ (by simp) (by omega) _ _ _ _ h1 (.inl rfl)
  have g4 : (lineCost P I + 1) * i ≤ (6 + P + 500 * I) * (json.length + 4) := Nat.mul_le_mul (by unfold lineCost; omega) (by omega)
  have g5 : (if o.pfx.length ≠ 0 then o.pfx else []).length ≤ P := by
    split
    · exact hp
    · simp
  cases h
  simp only [Nat.mul_zero] at g3 ⊢
  split
  · rw [List.length_append]; simp only [List.length_cons, List.length_nil]; omega
  · omega

/-! ### Options -/

theorem encodeUtf8_len (r : Nat) : (encodeUtf8 r).length ≤ 4 := by
  unfold encodeUtf8
  split
  · simp
  split
  · simp
  split <;> simp

theorem unesc_len : ∀ (n : Nat) (b : Bytes), b.length ≤ n → (unesc b).length ≤ b.length
  | _, [], _ => by simp [unesc]
  | 0, c :: r, h => by simp at h
  | n + 1, c :: r, h => by
    unfold unesc
    simp only [List.length_cons] at h
    have ih : ∀ q : Bytes, q.length ≤ r.length → (unesc q).length ≤ q.length := fun q hq => unesc_len n q (by omega)
    split
    · simp
    split
    · split
      · simp
      · rename_i e r'
        simp only [List.length_cons] at ih ⊢
        split
        · have := ih r' (by omega)
          simp only [List.length_cons]; omega
        · split
          · split
            · rename_i h1 h2 h3 h4 q
              simp only [List.length_cons] at ih ⊢
              have e4 := fun x => encodeUtf8_len x
              split
              · split
                · rename_i a b g1 g2 g3 g4 q'
                  simp only [List.length_cons] at ih ⊢
                  split
                  · have := ih q' (by omega)
                    have := e4 (pair4 (hex4 [h1, h2, h3, h4]) [g1, g2, g3, g4])
                    rw [List.length_append]; omega
                  · have := ih (a :: b :: g1 :: g2 :: g3 :: g4 :: q') (by simp only [List.length_cons]; omega)
                    have := e4 (charFromU32 (hex4 [h1, h2, h3, h4]))
                    rw [List.length_append]; simp only [List.length_cons] at *; omega
                · have := ih q (by omega)
                  have := e4 (charFromU32 (hex4 [h1, h2, h3, h4]))
                  rw [List.length_append]; omega
              · have := ih q (by omega)
                have := e4 (charFromU32 (hex4 [h1, h2, h3, h4]))
                rw [List.length_append]; omega
            · simp
          · simp
    · have := ih r (Nat.le_refl _)
      simp only [List.length_cons]; omega

theorem unescQ_len (j : Bytes) : (unescQ j).length ≤ j.length := by
  unfold unescQ
  split
  · rename_i a b r
    split
    · have := unesc_len _ (b :: r).dropLast (Nat.le_refl _)
      simp only [List.length_dropLast, List.length_cons] at this ⊢
      omega
    · simp
  · simp

/-- An option is no longer than the argument it is read from, unless it is a word. -/
theorem option_len {arg name s : Bytes} {v : Value} (hn : Selector name) (hv : get arg name = .ok v) (hs : v.str = .ok s) :
    s.length ≤ arg.length + 5 := by
  have hp := (get_piece (ks := [name]) (Nat.le_refl _) (fun k h => by simp at h; subst h; exact Selector.ord hn) (by simp) (by simpa [dotPath] using hv)).1.length_le
  unfold Value.str at hs
  split at hs
  · cases hs; simp
  · cases hs; simp
  · cases hs; omega
  · cases hs; omega
  · cases hs; omega
  · split at hs
    · cases hs
      rcases (get_prov hv).uesc with e | e
      · rw [e]; simp
      · rw [e]; have := unescQ_len v.json; omega
    · unfold stripQuotes at hs
      split at hs
      · simp [rpanic] at hs
      · have := slice_len hs; omega
  · cases hs; simp

theorem modPretty_len {j arg out : Bytes} (h : modPretty get j arg = .ok out) :
    (arg = [] ∧ out.length ≤ 1006 * (j.length + 4) + 1) ∨
    (arg ≠ [] ∧ out.length ≤ (arg.length + 5) + (6 + (arg.length + 5) + 500 * (arg.length + 5)) * (j.length + 4) + 1) := by
  unfold modPretty at h
  split at h
  · rename_i hne
    right
    refine ⟨by rintro rfl; simp at hne, ?_⟩
    obtain ⟨vi, g1, h⟩ := bind_eq_ok.1 h
    obtain ⟨vp, g2, h⟩ := bind_eq_ok.1 h
    obtain ⟨vs, _, h⟩ := bind_eq_ok.1 h
    obtain ⟨vw, _, h⟩ := bind_eq_ok.1 h
    obtain ⟨o1, e1, h⟩ := bind_eq_ok.1 h
    obtain ⟨o2, e2, h⟩ := bind_eq_ok.1 h
    obtain ⟨o3, e3, h⟩ := bind_eq_ok.1 h
    obtain ⟨o4, e4, h⟩ := bind_eq_ok.1 h
    have p1 : o1.pfx.length ≤ arg.length + 5 ∧ o1.indent.length ≤ arg.length + 5 := by
      unfold optIndent at e1
      split at e1
      · obtain ⟨s, hs, e⟩ := bind_eq_ok.1 e1
        cases e
        exact ⟨by simp [PrettyOptions.default], option_len (PlainKey.selector (by decide) (by decide)) g1 hs⟩
      · cases e1; exact ⟨by simp [PrettyOptions.default], by simp [PrettyOptions.default]⟩
    have p2 : o2.pfx.length ≤ arg.length + 5 ∧ o2.indent.length ≤ arg.length + 5 := by
      unfold optPrefix at e2
      split at e2
      · obtain ⟨s, hs, e⟩ := bind_eq_ok.1 e2
        cases e
        exact ⟨option_len (PlainKey.selector (by decide) (by decide)) g2 hs, p1.2⟩
      · cases e2; exact p1
    have p3 : o3.pfx.length ≤ arg.length + 5 ∧ o3.indent.length ≤ arg.length + 5 := by
      unfold optSortKeys at e3
      split at e3
      · obtain ⟨s, hs, e⟩ := bind_eq_ok.1 e3
        cases e; exact p2
      · cases e3; exact p2
    obtain ⟨w1, w2, _⟩ := optWidth_fields e4
    rw [← w1, ← w2] at p3
    exact prettyOptions_len (P := arg.length + 5) (I := arg.length + 5) p3.1 p3.2 h
  · rename_i he
    left
    refine ⟨by cases arg <;> simp at he ⊢, ?_⟩
    have := prettyOptions_len (P := 0) (I := 2) (o := PrettyOptions.default) (Nat.le_refl _) (Nat.le_refl _) h
    rw [show 6 + 0 + 500 * 2 = 1006 from rfl] at this
    generalize 1006 * (j.length + 4) = X at this ⊢
    omega

/-! ### Every modifier -/

theorem pretty_room {k m Y X p : Nat} (h1 : k ≤ (m + 5) + Y + 1) (h2 : Y ≤ 16000 * X) (h3 : m + 7 ≤ 4000 * p) (h4 : p ≤ X) : k + 1 ≤ X * 8 ^ 8 := by
  have : X * 20000 ≤ X * 8 ^ 8 := Nat.mul_le_mul_left _ (by decide)
  omega

theorem modApply_len {path : Path} {j out : Bytes} (hm : path.isModifier = true)
    (h : modApply get (modName path) j (modArg path) = .ok out) : out.length + 1 ≤ (j.length + 1) * 8 ^ path.comp.length := by
  obtain ⟨r, hr⟩ := isModifier_head hm
  have small : ∀ {k : Nat}, k ≤ 2 * j.length + 2 → k + 1 ≤ (j.length + 1) * 8 ^ path.comp.length := by
    intro k hk
    have := room_mono (n := j.length) (show 1 ≤ path.comp.length by rw [hr]; simp)
    omega
  unfold modApply at h
  split at h
  · cases h; exact small (by omega)
  split at h
  · exact small (modReverse_len h)
  split at h
  · exact small (by have := ugly_len h; omega)
  split at h
  · rename_i hname
    have hl : (modArg path).length + (if modArg path = [] then 7 else 8) ≤ path.comp.length := by
      unfold modName at hname
      unfold modArg
      have hc : path.comp.length = r.length + 1 := by rw [hr]; simp
      split at hname
      · rename_i h0
        rw [if_pos h0]
        have := congrArg List.length hname
        simp at this
        simp; omega
      · rename_i h0
        rw [if_neg h0]
        have := congrArg List.length hname
        simp [sub] at this
        rw [List.length_drop]
        split
        · omega
        · rename_i hne
          have : 0 < (List.drop (path.marg + 1) path.comp).length := List.length_pos_iff.2 hne
          rw [List.length_drop] at this
          omega
    rcases modPretty_len h with ⟨h1, h2⟩ | ⟨h1, h2⟩
    · rw [if_pos h1] at hl
      have := room_mono (n := j.length) (show 7 ≤ path.comp.length by omega)
      rw [show 8 ^ 7 = 2097152 from rfl] at this
      omega
    · rw [if_neg h1] at hl
      generalize (modArg path).length = m at *
      have e1 := room_mono (n := j.length) hl
      refine Nat.le_trans ?_ e1
      rw [Nat.pow_add, ← Nat.mul_assoc]
      have e2 := lin_pow8 m
      have e3 : 6 + (m + 5) + 500 * (m + 5) ≤ 4000 * 8 ^ m := by omega
      have e4 : (6 + (m + 5) + 500 * (m + 5)) * (j.length + 4) ≤ (4000 * 8 ^ m) * (4 * (j.length + 1)) := Nat.mul_le_mul e3 (by omega)
      have e5 : (4000 * 8 ^ m) * (4 * (j.length + 1)) = 16000 * ((j.length + 1) * 8 ^ m) := by
        rw [Nat.mul_mul_mul_comm, Nat.mul_comm (8 ^ m)]
      exact pretty_room h2 (Nat.le_trans e4 (Nat.le_of_eq e5)) (by omega) (room_ge_pow j.length m)
  split at h
  · unfold modValid at h
    obtain ⟨b, _, h⟩ := bind_eq_ok.1 h
    split at h <;> cases h
    · exact small (by omega)
    · exact small (by simp)
  split at h
  · exact small (by have := modFlatten_len h; omega)
  split at h
  · exact small (modJoin_len h)
  · cases h; exact small (by simp)

/-- What a path finds is at most `8 ^ |path|` times as long as the text. -/
theorem get_size {json path : Bytes} {v : Value} (h : get json path = .ok v) : v.json.length + 1 ≤ (json.length + 1) * 8 ^ path.length :=
  get_bounded (fun _ _ _ hm h => modApply_len hm h) path json v h

end Gjson
