import Verif.Lemmas.Ugly
import Verif.Lemmas.Query
/-
`pretty` never fails: invariants of the printer.
-/
namespace Gjson

/-- The printed buffer has grown from `b0` and the position has moved on from `i`,
or a single-line attempt was given up. -/
def PGood (json : Bytes) (max : Int) (b0 i : Nat) (r : PRes) : Prop :=
  ∃ buf' i' nl' ok, r = .ok (buf', i', nl', ok) ∧ b0 ≤ buf'.length ∧ i ≤ i' ∧
    (i < json.length → (max ≠ -1 ∧ ok = false) ∨ i < i')

/-- `extend_pretty_any` works on every position that is not too far from the end
for the bound `d`. -/
def AnyOk (json : Bytes) (d : Nat) (any : PrettyFn) : Prop :=
  ∀ a tabs max depth buf i nl, json.length - i + 1 ≤ d → PGood json max buf.length i (any a tabs max depth buf i nl)

theorem lastByte_ok {buf : Bytes} (h : 0 < buf.length) : ∃ c, lastByte buf = .ok c := by
  unfold lastByte
  rw [if_neg (by omega)]
  exact idx_ok (by omega)

theorem extendTabs_le (buf pfx indent : Bytes) (tabs : Int) : buf.length ≤ (extendTabs buf pfx indent tabs).length := by
  unfold extendTabs
  split <;> simp <;> omega

/-! ### Sorting -/

/-- The ranges of a pair are inside the texts. -/
structure PairIn (json : Bytes) (b0 : Nat) (buf : Bytes) (p : Pair) : Prop where
  key : p.kstart + 2 ≤ p.kend ∧ p.kend ≤ json.length
  low : b0 < p.vstart
  val : p.vstart ≤ p.vend
  high : p.vend ≤ buf.length

theorem PairIn.mono {json : Bytes} {b0 : Nat} {buf buf' : Bytes} {p : Pair} (h : PairIn json b0 buf p)
    (hb : buf.length ≤ buf'.length) : PairIn json b0 buf' p := ⟨h.key, h.low, h.val, Nat.le_trans h.high hb⟩

theorem pairKey_ok {json : Bytes} {b0 : Nat} {buf : Bytes} {p : Pair} (h : PairIn json b0 buf p) :
    pairKey json p = .ok (sub json (p.kstart + 1) (p.kend - 1)) := by
  unfold pairKey
  have := h.key
  rw [if_neg (by omega), slice_ok (by omega) (by omega)]

theorem mapM_ok {α β : Type} {f : α → Res β} {g : α → β} : ∀ {l : List α}, (∀ a ∈ l, f a = .ok (g a)) →
    l.mapM f = .ok (l.map g)
  | [], _ => rfl
  | a :: l, h => by
    rw [List.mapM_cons, h a (by simp)]
    simp only [ok_bind]
    rw [mapM_ok (fun b hb => h b (List.mem_cons_of_mem _ hb))]
    rfl

theorem insertPair_perm (a : Bytes × Pair) : ∀ l, (insertPair a l).Perm (a :: l)
  | [] => .refl _
  | b :: l => by
    unfold insertPair
    split
    · exact .refl _
    · exact ((insertPair_perm a l).cons b).trans (.swap _ _ _)

theorem sortByKey_perm : ∀ l, (sortByKey l).Perm l
  | [] => .refl _
  | a :: l => (insertPair_perm a _).trans ((sortByKey_perm l).cons a)

theorem sortPairList_ok {json : Bytes} {b0 : Nat} {buf : Bytes} {pairs : List Pair} (h : ∀ p ∈ pairs, PairIn json b0 buf p) :
    ∃ l, sortPairList json pairs = .ok l ∧ l.Perm pairs := by
  unfold sortPairList
  split
  · exact ⟨_, rfl, .refl _⟩
  · rw [mapM_ok (g := fun p => (sub json (p.kstart + 1) (p.kend - 1), p)) (fun p hp => by rw [pairKey_ok (h p hp)]; rfl)]
    refine ⟨_, rfl, ?_⟩
    have := (sortByKey_perm (pairs.map fun p => (sub json (p.kstart + 1) (p.kend - 1), p))).map Prod.snd
    rw [List.map_map] at this
    exact this.trans (.of_eq (List.map_id pairs))

theorem joinPairs_ok {json : Bytes} {b0 : Nat} {buf : Bytes} : ∀ {pairs : List Pair}, (∀ p ∈ pairs, PairIn json b0 buf p) →
    ∃ b, joinPairs buf pairs = .ok b
  | [], _ => ⟨_, rfl⟩
  | [p], h => ⟨_, slice_ok (h p (by simp)).val (h p (by simp)).high⟩
  | p :: q :: r, h => by
    obtain ⟨b, hb⟩ := joinPairs_ok (pairs := q :: r) (fun x hx => h x (List.mem_cons_of_mem _ hx))
    unfold joinPairs
    rw [slice_ok (h p (by simp)).val (h p (by simp)).high, hb]
    exact ⟨_, rfl⟩

theorem sortPairs_ok {json : Bytes} {b0 : Nat} {buf : Bytes} {pairs : List Pair} (h : ∀ p ∈ pairs, PairIn json b0 buf p)
    (hb : b0 < buf.length) : ∃ b, sortPairs json buf pairs = .ok b ∧ b0 < b.length := by
  unfold sortPairs
  split
  · exact ⟨_, rfl, hb⟩
  · rename_i p0 rest
    obtain ⟨l, h1, h2⟩ := sortPairList_ok h
    obtain ⟨b, h3⟩ := joinPairs_ok (json := json) (b0 := b0) (buf := buf) (pairs := l) (fun p hp => h p (h2.mem_iff.1 hp))
    rw [h1]; simp only [ok_bind]
    rw [h3]
    refine ⟨_, rfl, ?_⟩
    have := h p0 (by simp)
    have := this.low; have := (h p0 (by simp)).val; have := (h p0 (by simp)).high
    simp; omega

/-! ### Numbers and strings -/

theorem prettyNumberEnd_ok {json : Bytes} : ∀ (n i : Nat), i ≤ json.length → json.length - i < n →
    ∃ e, prettyNumberEnd json n i = .ok e ∧ i ≤ e ∧ e ≤ json.length
  | 0, _, _, h => by omega
  | n + 1, i, hi, hn => by
    unfold prettyNumberEnd
    split
    · rename_i hl
      obtain ⟨c, hc⟩ := idx_ok hl
      rw [hc]; simp only [ok_bind]
      split
      · exact ⟨_, rfl, Nat.le_refl _, hi⟩
      · obtain ⟨e, h1, h2, h3⟩ := prettyNumberEnd_ok n (i + 1) hl (by omega)
        exact ⟨e, h1, by omega, h3⟩
    · exact ⟨_, rfl, Nat.le_refl _, hi⟩

theorem prettyNumber_good {json : Bytes} (buf : Bytes) {i : Nat} (nl max : Int) (h : i < json.length) :
    PGood json max buf.length i (prettyNumber buf json i nl) := by
  unfold prettyNumber
  obtain ⟨e, h1, h2, h3⟩ := prettyNumberEnd_ok (json := json) (json.length + 1) (i + 1) (by omega) (by omega)
  rw [h1]; simp only [ok_bind]
  rw [slice_ok (by omega) h3]
  exact ⟨_, _, _, _, rfl, by simp, by omega, fun _ => .inr (by omega)⟩

theorem at_of_idx {json : Bytes} {i : Nat} {c : UInt8} (h : idx json i = .ok c) : ∃ r, At json i (c :: r) := by
  have hlt : i < json.length := by
    unfold idx at h
    split at h
    · rename_i hh; exact (List.getElem?_eq_some_iff.1 hh).1
    · simp at h
  refine ⟨json.drop (i + 1), by omega, ?_⟩
  rw [List.drop_eq_getElem_cons hlt]
  unfold idx at h
  rw [List.getElem?_eq_getElem hlt] at h
  cases h; rfl

theorem prettyString_ok {json : Bytes} (buf : Bytes) {i : Nat} (nl : Int) (h : idx json i = .ok (c! '"')) :
    ∃ buf' e, prettyString buf json i nl = .ok (buf', e, nl, true) ∧ buf.length ≤ buf'.length ∧ i < e ∧
      e ≤ json.length ∧ (e < json.length → i + 2 ≤ e) := by
  obtain ⟨r, hA⟩ := at_of_idx h
  refine ⟨_, _, prettyString_eq buf nl hA, by simp, by omega, ?_, ?_⟩
  · have h1 := congrArg List.length (sEnd_append r false)
    have := hA.len
    simp at h1 this; omega
  · intro hlt
    cases r with
    | nil => have := hA.len; simp [sEnd] at hlt this; omega
    | cons c r =>
      have : 0 < (sEnd false (c :: r)).1.length := by unfold sEnd; split <;> simp
      omega

/-! ### Objects and arrays -/

theorem prettyClose_ok {json : Bytes} {b0 : Nat} (opn cls : UInt8) (a : PArgs) (tabs : Int) (i : Nat) (nl : Int) (buf : Bytes)
    (pairs : List Pair) (n : Nat) (hp : ∀ p ∈ pairs, PairIn json b0 buf p) (hb : b0 < buf.length) :
    ∃ buf' nl' ok, prettyClose json opn cls a tabs i nl buf pairs n = .ok (buf', i + 1, nl', ok) ∧ b0 < buf'.length := by
  unfold prettyClose
  split
  rotate_left
  · exact ⟨_, _, _, rfl, by simp; omega⟩
  have hs : ∃ b1, closeSort json opn a buf pairs = .ok b1 ∧ b0 < b1.length := by
    unfold closeSort
    split
    · exact sortPairs_ok hp hb
    · exact ⟨_, rfl, hb⟩
  obtain ⟨b1, h1, h2⟩ := hs
  rw [h1]; simp only [ok_bind]
  have hs2 : ∃ nl2 b2, closeLine nl b1 n = .ok (nl2, b2) ∧ b0 < b2.length := by
    unfold closeLine
    split
    · obtain ⟨l, hl⟩ := lastByte_ok (buf := b1) (by omega)
      rw [hl]; simp only [ok_bind]
      refine ⟨_, _, rfl, ?_⟩
      split <;> (try simp) <;> omega
    · exact ⟨_, _, rfl, h2⟩
  obtain ⟨nl2, b2, h3, h4⟩ := hs2
  rw [h3]; simp only [ok_bind]
  obtain ⟨l, hl⟩ := lastByte_ok (buf := b2) (by omega)
  rw [hl]; simp only [ok_bind]
  refine ⟨_, _, _, rfl, ?_⟩
  have := extendTabs_le b2 a.pfx a.indent tabs
  split <;> simp <;> omega

theorem prettySep_le (opn : UInt8) (a : PArgs) (buf : Bytes) (n : Nat) : buf.length ≤ (prettySep opn a buf n).length := by
  unfold prettySep
  split
  · split <;> simp
  · exact Nat.le_refl _

theorem prettyLine_ok (a : PArgs) (nl : Int) {buf : Bytes} (h : 0 < buf.length) :
    ∃ nl' b, prettyLine a nl buf = .ok (nl', b) ∧ buf.length ≤ b.length := by
  unfold prettyLine
  split
  · obtain ⟨l, hl⟩ := lastByte_ok h
    rw [hl]; simp only [ok_bind]
    refine ⟨_, _, rfl, ?_⟩
    split <;> simp
    omega
  · exact ⟨_, _, rfl, Nat.le_refl _⟩

theorem prettyIndent_le (a : PArgs) (tabs : Int) (buf : Bytes) : buf.length ≤ (prettyIndent a tabs buf).length := by
  unfold prettyIndent
  split
  · exact extendTabs_le _ _ _ _
  · exact Nat.le_refl _

theorem prettyKey_ok {json : Bytes} (opn : UInt8) (a : PArgs) (buf : Bytes) {i : Nat} (nl : Int) {c : UInt8}
    (hc : idx json i = .ok c) (hq : opn = c! '{' → c = c! '"') (hi : i < json.length) :
    ∃ b4 i4 nl4 kend, prettyKey json opn a buf i nl = .ok (b4, i4, nl4, kend) ∧ buf.length ≤ b4.length ∧
        i ≤ i4 ∧ i4 ≤ json.length ∧ (opn = c! '{' → i < i4 ∧ (i4 < json.length → i + 2 ≤ i4) ∧ (a.sortKeys → kend = i4)) ∧
        (opn ≠ c! '{' → i4 = i) := by
  unfold prettyKey
  split
  · rename_i ho
    obtain ⟨b', e, h5, h6, h7, h8, h9⟩ := prettyString_ok buf nl (by rw [hc, hq ho])
    rw [h5]; simp only [ok_bind]
    refine ⟨_, _, _, _, rfl, ?_, by omega, h8, fun _ => ⟨h7, h9, fun hs => by rw [if_pos hs]⟩, fun h => absurd ho h⟩
    split <;> simp <;> omega
  · rename_i ho
    exact ⟨_, _, _, _, rfl, Nat.le_refl _, Nat.le_refl _, by omega, fun h => absurd h ho, fun _ => rfl⟩

theorem prettyObjLoop_good {json : Bytes} {d : Nat} {any : PrettyFn} (hany : AnyOk json d any) (opn cls : UInt8)
    (a : PArgs) (tabs max : Int) (depth : Nat) {b0 : Nat} : ∀ (fuel i : Nat) (nl : Int) (buf : Bytes) (pairs : List Pair) (n : Nat),
    json.length - i + 1 ≤ d → json.length - i < fuel → b0 < buf.length →
    (i < json.length → ∀ p ∈ pairs, PairIn json b0 buf p) →
    ∃ buf' i' nl' ok, prettyObjLoop any json opn cls a tabs max depth fuel i nl buf pairs n = .ok (buf', i', nl', ok) ∧
      b0 < buf'.length ∧ i ≤ i'
  | 0, _, _, _, _, _, _, h, _, _ => by omega
  | fuel + 1, i, nl, buf, pairs, n, hd, hf, hb, hp => by
    unfold prettyObjLoop
    by_cases hlt : i < json.length
    rotate_left
    · rw [if_neg hlt]
      exact ⟨_, _, _, _, rfl, hb, Nat.le_refl _⟩
    rw [if_pos hlt]
    obtain ⟨c, hc⟩ := idx_ok hlt
    rw [hc]; simp only [ok_bind]
    have hp := hp hlt
    have skip : ∃ buf' i' nl' ok,
        prettyObjLoop any json opn cls a tabs max depth fuel (i + 1) nl buf pairs n = .ok (buf', i', nl', ok) ∧
        b0 < buf'.length ∧ i ≤ i' := by
      obtain ⟨b, j, l, o, h1, h2, h3⟩ := prettyObjLoop_good hany opn cls a tabs max depth fuel (i + 1) nl buf pairs n
        (by omega) (by omega) hb (fun _ => hp)
      exact ⟨b, j, l, o, h1, h2, by omega⟩
    split
    · exact skip
    split
    · obtain ⟨b, l, o, h1, h2⟩ := prettyClose_ok opn cls a tabs i nl buf pairs n hp hb
      exact ⟨b, _, l, o, h1, h2, by omega⟩
    split
    rotate_left
    · exact skip
    rename_i hopn
    -- one element
    have l1 := prettySep_le opn a buf n
    obtain ⟨nl1, b2, h3, l2⟩ := prettyLine_ok a nl (buf := prettySep opn a buf n) (by omega)
    rw [h3]; simp only [ok_bind]
    have l3 := prettyIndent_le a tabs b2
    obtain ⟨b4, i4, nl4, kend, h5, l4, hi4, hi4', hob, hnob⟩ := prettyKey_ok opn a (prettyIndent a tabs b2) nl1 hc
      (fun ho => by
        rcases hopn with h | h
        · rw [ho] at h; exact absurd h (by decide)
        · exact h) hlt
    rw [h5]; simp only [ok_bind]
    obtain ⟨b5, i5, nl5, ok, h6, l5, hi5, hadv⟩ := hany a (tabs + 1) max depth b4 i4 nl4 (by omega)
    rw [h6]; simp only [ok_bind]
    split
    · exact ⟨_, _, _, _, rfl, by omega, by omega⟩
    rename_i hcont
    have hlt5 : i < i5 := by
      by_cases ho : opn = c! '{'
      · have := hob ho; omega
      · have h := hnob ho
        rcases hadv (by omega) with h | h
        · exact absurd (by simpa using h) hcont
        · omega
    rw [if_neg (by omega)]
    have := prettyObjLoop_good (b0 := b0) hany opn cls a tabs max depth fuel (i5 - 1 + 1) nl5 b5
      (prettyPairs opn a pairs i kend b2.length b5.length) (n + 1)
      (by omega) (by omega) (by omega) ?_
    · obtain ⟨b, j, l, o, h1, h2, h3⟩ := this
      exact ⟨b, j, l, o, h1, h2, by omega⟩
    · intro hi p hpm
      have hold : ∀ p ∈ pairs, PairIn json b0 b5 p := fun p h => (hp p h).mono (by omega)
      unfold prettyPairs at hpm
      split at hpm
      · rename_i hcond
        rcases List.mem_append.1 hpm with h | h
        · exact hold p h
        · simp only [List.mem_singleton] at h
          obtain ⟨c1, c2, c3, c4, c5⟩ := hcond
          subst h
          obtain ⟨k1, k2, k3⟩ := hob c2
          refine ⟨⟨?_, ?_⟩, ?_, ?_, Nat.le_refl _⟩ <;> simp only
          · rw [k3 c3]; exact k2 (by omega)
          · rw [k3 c3]; exact hi4'
          · omega
          · omega
      · exact hold p hpm

theorem prettyObj_good {json : Bytes} {d : Nat} {any : PrettyFn} (hany : AnyOk json d any) {i : Nat} (hi : i < json.length)
    (hd : json.length - (i + 1) + 1 ≤ d) : ∀ (k : Nat) (opn cls : UInt8) (a : PArgs) (tabs max : Int) (depth : Nat) (buf : Bytes) (nl : Int),
    (if a.pretty then 2 else 1) ≤ k → PGood json max buf.length i (prettyObj any json k opn cls a tabs max depth buf i nl)
  | 0, _, _, a, _, _, _, _, _, h => by split at h <;> omega
  | k + 1, opn, cls, a, tabs, max, depth, buf, nl, hk => by
    unfold prettyObj
    split
    · unfold sliceFrom
      rw [if_pos (by omega)]
      simp only [ok_bind, ugly_eq]
      exact ⟨_, _, _, _, rfl, by simp, by omega, fun _ => .inr hi⟩
    · have body : PGood json max buf.length i (prettyObjLoop any json opn cls a tabs max depth (json.length + 1)
          (i + 1) nl (buf ++ [opn]) [] 0) := by
        obtain ⟨b, j, l, o, h1, h2, h3⟩ := prettyObjLoop_good (b0 := buf.length) hany opn cls a tabs max depth (json.length + 1)
          (i + 1) nl (buf ++ [opn]) [] 0 hd (by omega) (by simp) (by simp)
        exact ⟨b, j, l, o, h1, by omega, by omega, fun _ => .inr (by omega)⟩
      simp only
      split
      · split
        · rename_i hw hr
          split
          · have hpre := hr.1
            rw [if_pos hpre] at hk
            obtain ⟨b, j, l, o, h1, h2, h3, h4⟩ := prettyObj_good hany hi hd k (c! '[') (c! ']')
              { a with pretty := false, indent := [] } 0 (a.width - ((buf.length : Int) - nl)) depth buf 0
              (by rw [if_neg (by simp)]; omega)
            rw [h1]; simp only [ok_bind]
            split
            · rename_i hok
              refine ⟨_, _, _, _, rfl, h2, h3, fun _ => .inr ?_⟩
              rcases h4 hi with h | h
              · rw [h.2] at hok; simp at hok
              · exact h
            · exact body
          · exact body
        · split
          · rename_i hm
            exact ⟨_, _, _, _, rfl, Nat.le_refl _, Nat.le_refl _, fun _ => .inl ⟨hm.1, rfl⟩⟩
          · exact body
      · exact body

theorem prettyAnyLoop_good {json : Bytes} {d : Nat} {any : PrettyFn} (hany : AnyOk json d any) (a : PArgs) (tabs max : Int)
    (depth : Nat) (buf : Bytes) (nl : Int) : ∀ (n i : Nat), json.length - (i + 1) + 1 ≤ d ∨ json.length ≤ i → json.length - i < n →
    PGood json max buf.length i (prettyAnyLoop any json a tabs max depth buf nl n i)
  | 0, _, _, h => by omega
  | n + 1, i, hd, hn => by
    unfold prettyAnyLoop
    split
    rotate_left
    · rename_i h
      exact ⟨_, _, _, _, rfl, Nat.le_refl _, Nat.le_refl _, fun h2 => absurd h2 h⟩
    rename_i hlt
    obtain ⟨c, hc⟩ := idx_ok hlt
    rw [hc]; simp only [ok_bind]
    have skip : PGood json max buf.length i (prettyAnyLoop any json a tabs max depth buf nl n (i + 1)) := by
      obtain ⟨b, j, l, o, h1, h2, h3, h4⟩ := prettyAnyLoop_good hany a tabs max depth buf nl n (i + 1) (by omega) (by omega)
      exact ⟨b, j, l, o, h1, h2, by omega, fun _ => .inr (by omega)⟩
    have hd' : json.length - (i + 1) + 1 ≤ d := by omega
    split; · exact skip
    split
    · rename_i hq
      obtain ⟨b', e, h5, h6, h7, h8, h9⟩ := prettyString_ok buf nl (by rw [hc, hq])
      exact ⟨_, _, _, _, h5, h6, by omega, fun _ => .inr h7⟩
    split; · exact prettyNumber_good _ _ _ hlt
    split; · exact prettyObj_good hany hlt hd' _ _ _ _ _ _ _ _ _ (by split <;> omega)
    split; · exact prettyObj_good hany hlt hd' _ _ _ _ _ _ _ _ _ (by split <;> omega)
    split; · exact ⟨_, _, _, _, rfl, by simp, by omega, fun _ => .inr (by omega)⟩
    split; · exact ⟨_, _, _, _, rfl, by simp, by omega, fun _ => .inr (by omega)⟩
    split; · exact ⟨_, _, _, _, rfl, by simp, by omega, fun _ => .inr (by omega)⟩
    exact skip

theorem prettyAny_ok (json : Bytes) : ∀ d, AnyOk json d (prettyAny json d)
  | 0 => fun _ _ _ _ _ _ _ h => by omega
  | d + 1 => fun a tabs max depth buf i nl h => by
    unfold prettyAny
    exact prettyAnyLoop_good (prettyAny_ok json d) a tabs max depth buf nl (json.length + 1) i (by omega) (by omega)

theorem prettyOptions_ok (json : Bytes) (o : PrettyOptions) : ∃ b, prettyOptions json o = .ok b := by
  unfold prettyOptions
  obtain ⟨b, j, l, k, h1, _⟩ := prettyAny_ok json (json.length + 1) ⟨true, o.width, o.pfx, o.indent, o.sortKeys⟩ 0 (-1) 0
    (if o.pfx.length ≠ 0 then o.pfx else []) 0 0 (by omega)
  simp only at h1 ⊢
  rw [h1]
  exact ⟨_, rfl⟩

end Gjson
