import Verif.Lemmas.Closed
import Verif.Lemmas.Ink
/-
How long the result of `get` can be: what the searches, the multipaths and the
modifiers other than `@pretty` make of the length of the text.
-/
namespace Gjson
open Spec

/-! ### Arithmetic -/

theorem pow8_pos (b : Nat) : 1 ≤ 8 ^ b := Nat.one_le_pow _ _ (by decide)

theorem pow8_mono {a b : Nat} (h : a ≤ b) : 8 ^ a ≤ 8 ^ b := Nat.pow_le_pow_right (by decide) h

theorem room_mono {n a b : Nat} (h : a ≤ b) : (n + 1) * 8 ^ a ≤ (n + 1) * 8 ^ b := Nat.mul_le_mul_left _ (pow8_mono h)

theorem room_succ (n b : Nat) : (n + 1) * 8 ^ (b + 1) = 8 * ((n + 1) * 8 ^ b) := by
  rw [Nat.pow_succ, ← Nat.mul_assoc, Nat.mul_comm]

theorem room_ge (n b : Nat) : n + 1 ≤ (n + 1) * 8 ^ b := Nat.le_mul_of_pos_right _ (pow8_pos b)

theorem room_ge_pow (n b : Nat) : 8 ^ b ≤ (n + 1) * 8 ^ b := Nat.le_mul_of_pos_left _ (by omega)

theorem lin_pow8 (k : Nat) : 6 * k + 4 ≤ 6 * 8 ^ k := by
  induction k with
  | zero => decide
  | succ k ih => have := pow8_pos k; rw [Nat.pow_succ]; omega

/-! ### Lists of values -/

/-- The bytes of the values, with one more for each. -/
def mass : List Value → Nat
  | [] => 0
  | v :: r => v.json.length + 1 + mass r

theorem mass_append (a b : List Value) : mass (a ++ b) = mass a + mass b := by
  induction a with
  | nil => simp [mass]
  | cons v r ih => rw [List.cons_append, mass, mass, ih]; omega

/-- The bytes of the texts, with one more for each. -/
def heap : List Bytes → Nat
  | [] => 0
  | s :: r => s.length + 1 + heap r

theorem heap_append (a b : List Bytes) : heap (a ++ b) = heap a + heap b := by
  induction a with
  | nil => simp [heap]
  | cons v r ih => rw [List.cons_append, heap, heap, ih]; omega

theorem heap_reverse (a : List Bytes) : heap a.reverse = heap a := by
  induction a with
  | nil => rfl
  | cons v r ih => rw [List.reverse_cons, heap_append, ih, heap]; simp [heap]; omega

theorem joinComma_heap : ∀ l : List Bytes, (joinComma l).length ≤ heap l
  | [] => by simp [joinComma]
  | [s] => by simp [joinComma, heap]
  | s :: t :: r => by
    have := joinComma_heap (t :: r)
    unfold joinComma heap
    simp only [List.length_append, List.length_cons, List.length_nil]
    omega

theorem existing_heap : ∀ l : List Value, heap (existing l) ≤ mass l
  | [] => by simp [existing, heap]
  | v :: r => by
    have := existing_heap r
    unfold existing at this ⊢
    rw [List.filter_cons, mass]
    split
    · rw [List.map_cons, heap]; omega
    · omega

theorem arrayOf_length (l : List Value) : (arrayOf l).json.length ≤ mass l + 2 := by
  unfold arrayOf
  rw [mkOwned_json]
  have h1 := joinComma_heap (existing l)
  have h2 := existing_heap l
  simp only [List.length_cons, List.length_append, List.length_nil]
  omega

theorem collectR_mass {f : Value → Res (Option Value)} {c : Nat} : ∀ {vals l : List Value},
    (∀ v ∈ vals, ∀ w, f v = .ok (some w) → w.json.length + 1 ≤ (v.json.length + 1) * c) → collectR f vals = .ok l →
    mass l ≤ mass vals * c
  | [], l, _, h => by simp [collectR] at h; subst h; simp [mass]
  | v :: r, l, hf, h => by
    unfold collectR at h
    obtain ⟨o, h1, h⟩ := bind_eq_ok.1 h
    obtain ⟨l', h2, h⟩ := bind_eq_ok.1 h
    cases h
    have ih := collectR_mass (fun v hv => hf v (by simp [hv])) h2
    rw [mass_append, mass, Nat.add_mul]
    cases o with
    | none => simp only [Option.toList, mass]; omega
    | some w =>
      have := hf v (by simp) w h1
      simp only [Option.toList, mass]
      omega

/-! ### Elements -/

theorem tok_part {i : Nat} {s : Bytes} (hs : s ≠ []) (h : (tokVal i (leafTok s).1).exists = true) :
    (tokVal i (leafTok s).1).index = some i ∧ (tokVal i (leafTok s).1).owned = [] ∧ 1 ≤ (tokVal i (leafTok s).1).slice.length ∧
      (tokVal i (leafTok s).1).slice.length + (leafTok s).2.length = s.length := by
  rcases leafTok_split hs with ⟨v, info, h1, h2, h3⟩ | ⟨_, h2⟩
  · rw [h1]
    simp only [tokVal]
    have e : (mkVal v (some i) info).slice = v ∧ (mkVal v (some i) info).owned = [] := by unfold mkVal; split <;> exact ⟨rfl, rfl⟩
    have e3 : (mkVal v (some i) info).index = some i := by
      unfold mkVal; split <;> rfl
    have h4 := congrArg List.length h3
    rw [List.length_append] at h4
    have : 1 ≤ v.length := List.length_pos_iff.2 h2
    rw [e.1, e.2, e3]
    exact ⟨rfl, rfl, this, h4.symm⟩
  · rw [h2 i] at h; cases h

/-- Values that lie one after the other between two places. -/
def Chain (lo hi : Nat) : List Value → Prop
  | [] => lo ≤ hi
  | v :: r => ∃ k, v.index = some k ∧ v.owned = [] ∧ lo ≤ k ∧ 1 ≤ v.slice.length ∧ Chain (k + v.slice.length) hi r

theorem Chain.low {lo lo' hi : Nat} (h : lo' ≤ lo) : ∀ {l : List Value}, Chain lo hi l → Chain lo' hi l
  | [], hc => Nat.le_trans h hc
  | _ :: _, ⟨k, h1, h2, h3, h4⟩ => ⟨k, h1, h2, Nat.le_trans h h3, h4⟩

theorem toks_chain (i : Nat) (s : Bytes) : Chain i (i + s.length) (toks i s) := by
  generalize hn : s.length = n
  induction n using Nat.strongRecOn generalizing i s with
  | ind n ih =>
    cases s with
    | nil => rw [toks_nil]; exact Nat.le_add_right _ _
    | cons c r =>
      simp only [List.length_cons] at hn
      by_cases c1 : c ≤ c! ' ' ∨ c = c! ',' ∨ c = c! ':'
      · rw [toks_skip c1]
        have := ih r.length (by omega) (i + 1) r rfl
        rw [show i + n = i + 1 + r.length by omega]
        exact this.low (by omega)
      by_cases c2 : c = c! '}' ∨ c = c! ']'
      · rw [toks_close c2]; exact Nat.le_add_right _ _
      rw [toks_tok c1 c2]
      split
      · rename_i he
        have hlt := leafTok_lt (s := c :: r) (by simp)
        obtain ⟨h1, h2, h3, h4⟩ := tok_part (i := i) (s := c :: r) (by simp) he
        simp only [List.length_cons] at hlt h4
        have := ih (leafTok (c :: r)).2.length (by omega) (i + (r.length + 1 - (leafTok (c :: r)).2.length)) (leafTok (c :: r)).2 rfl
        refine ⟨i, h1, h2, Nat.le_refl _, h3, ?_⟩
        simp only [List.length_cons]
        rw [show i + n = i + (r.length + 1 - (leafTok (c :: r)).2.length) + (leafTok (c :: r)).2.length by omega]
        exact this.low (by omega)
      · exact Nat.le_add_right _ _

theorem eachToks_chain (i : Nat) (lines : Bool) (s : Bytes) : ∃ lo, i ≤ lo ∧ Chain lo (i + s.length) (eachToks i lines s) ∨ eachToks i lines s = [] := by
  unfold eachToks
  split
  · exact ⟨i, .inl ⟨Nat.le_refl _, toks_chain i s⟩⟩
  · cases s with
    | nil => exact ⟨0, .inr (by simp [toks_nil])⟩
    | cons c r =>
      refine ⟨i + 1, .inl ⟨by omega, ?_⟩⟩
      have := toks_chain (i + 1) r
      simp only [List.drop_succ_cons, List.drop_zero, List.length_cons]
      rwa [show i + (r.length + 1) = i + 1 + r.length by omega]

theorem json_of_owned {v : Value} (h : v.owned = []) : v.json = v.slice := by
  unfold Value.json
  rw [h]
  cases v.slice <;> simp

theorem Chain.mass {hi : Nat} : ∀ {l : List Value} {lo : Nat}, Chain lo hi l → Gjson.mass l + 2 * lo ≤ 2 * hi ∧ l.length + lo ≤ hi
  | [], lo, h => by unfold Chain at h; simp [Gjson.mass]; omega
  | v :: r, lo, ⟨k, _, h2, h3, h4, h5⟩ => by
    have := h5.mass
    rw [Gjson.mass, json_of_owned h2, List.length_cons]
    omega

theorem eachToks_mass (i : Nat) (lines : Bool) (s : Bytes) :
    mass (eachToks i lines s) ≤ 2 * s.length ∧ (eachToks i lines s).length ≤ s.length := by
  obtain ⟨lo, ⟨h1, h2⟩ | h2⟩ := eachToks_chain i lines s
  · have := h2.mass; omega
  · rw [h2]; simp [mass]

theorem Chain.mem {hi : Nat} : ∀ {l : List Value} {lo : Nat}, Chain lo hi l → ∀ v ∈ l, v.json.length + lo ≤ hi
  | [], lo, h, v, hv => by simp at hv
  | w :: r, lo, ⟨k, _, h2, h3, h4, h5⟩, v, hv => by
    rcases List.mem_cons.1 hv with rfl | hv
    · have := h5.mass; rw [json_of_owned h2]; omega
    · have := h5.mem v hv; omega

theorem eachToks_each {i : Nat} {lines : Bool} {s : Bytes} {v : Value} (h : v ∈ eachToks i lines s) : v.json.length ≤ s.length := by
  obtain ⟨lo, ⟨h1, h2⟩ | h2⟩ := eachToks_chain i lines s
  · have := h2.mem v h; omega
  · rw [h2] at h; simp at h

/-! ### Numbers and strings written -/

theorem natDigits_length : ∀ (f n : Nat), (natDigits f n).length ≤ n + 1
  | 0, _ => by simp [natDigits]
  | f + 1, n => by
    unfold natDigits
    split
    · simp
    · have := natDigits_length f (n / 10)
      simp only [List.length_append, List.length_cons, List.length_nil]
      omega

theorem natDec_len (n : Nat) : (natDec n).length ≤ n + 1 := natDigits_length _ _

theorem escapeByte_length (c : UInt8) : (escapeByte c).length ≤ 6 := by
  unfold escapeByte
  repeat' split
  all_goals simp

theorem jsonString_length (s : Bytes) : (jsonString s).length ≤ 6 * s.length + 2 := by
  have : (s.flatMap escapeByte).length ≤ 6 * s.length := by
    induction s with
    | nil => simp
    | cons c r ih =>
      have := escapeByte_length c
      rw [List.flatMap_cons, List.length_append, List.length_cons]
      omega
  unfold jsonString
  simp only [List.length_append, List.length_cons, List.length_nil]
  omega

/-! ### What is left of a path -/

/-- The length of what the search has still to follow. -/
def restLen (p : Path) : Nat := if p.sep = 0 then 0 else p.extra.length

/-- The length of a path from its present component on. -/
def fullLen (p : Path) : Nat := p.comp.length + pathRank p

theorem restLen_le (p : Path) : restLen p ≤ pathRank p := by unfold restLen pathRank; split <;> omega

theorem fullLen_next (extra : Bytes) : fullLen (pNext extra) ≤ extra.length := by
  have h := pNext_ok extra
  unfold fullLen pathRank
  split
  · have := h.comp.length_le; omega
  · rename_i h0
    have := congrArg List.length (h.sep h0).2
    simp at this; omega

theorem nextGroupLoop_len {extra0 : Bytes} : ∀ (n len : Nat) (rem : Path) (pre extra : Bytes),
    extra0 = pre ++ extra → PathOk extra rem → len = pre.length + rem.comp.length →
    ∀ len' rem', nextGroupLoop n len rem = .ok (len', rem') → len' + pathRank rem' ≤ extra0.length
  | 0, _, _, _, _, _, _, _, _, _, h => by simp [nextGroupLoop, outOfFuel] at h
  | n + 1, len, rem, pre, extra, he, hok, hlen, len', rem', h => by
    unfold nextGroupLoop at h
    split at h
    · rename_i hs
      have hs0 : rem.sep ≠ 0 := by rw [hs]; decide
      rw [pathNext_eq] at h
      simp only [ok_bind] at h
      have h1 := (hok.sep hs0).2
      refine nextGroupLoop_len n _ _ (pre ++ rem.comp ++ [rem.sep]) rem.extra ?_ (pNext_ok _) ?_ len' rem' h
      · rw [he]; conv => { lhs; rw [h1] }
        simp
      · simp; omega
    · cases h
      have hl := congrArg List.length he
      rw [List.length_append] at hl
      unfold pathRank
      split
      · have := hok.comp.length_le; omega
      · rename_i h0
        have := congrArg List.length (hok.sep h0).2
        simp at this; omega

theorem pGroup_len (p : Path) (h : p.sep = c! '.') : (pGroup p).1.length + pathRank (pGroup p).2 ≤ p.extra.length := by
  obtain ⟨g, r, h1, _⟩ := nextGroup_ok p h
  have h2 : pGroup p = (g, r) := by unfold pGroup; rw [h1]
  rw [h2]
  unfold Path.nextGroup at h1
  rw [if_neg (by simp [h]), pathNext_eq] at h1
  simp only [ok_bind] at h1
  obtain ⟨⟨len, rem⟩, h3, h1⟩ := bind_eq_ok.1 h1
  obtain ⟨group, h4, h1⟩ := bind_eq_ok.1 h1
  cases h1
  have := nextGroupLoop_len (extra0 := p.extra) _ _ _ [] p.extra rfl (pNext_ok _) (by simp) _ _ h3
  have h5 := slice_len h4
  have e : pathRank { rem with comp := [] } = pathRank rem := rfl
  simp only at *
  omega

/-! ### The search -/

/-- The result is short enough for what is left of the path. -/
def Roomy (n b : Nat) (x : Value × Path) : Prop := (x.1.json.length + 1) * 8 ^ restLen x.2 ≤ (n + 1) * 8 ^ b

/-- The claim for one path. -/
def Bounded (path : Bytes) : Prop := ∀ json v, get json path = .ok v → v.json.length + 1 ≤ (json.length + 1) * 8 ^ path.length

theorem Roomy.mono {n n' b b' : Nat} {x : Value × Path} (h : Roomy n b x) (hn : n ≤ n') (hb : b ≤ b') : Roomy n' b' x :=
  Nat.le_trans h (Nat.mul_le_mul (by omega) (pow8_mono hb))

theorem roomy_of {n b c : Nat} {x : Value × Path} (h : x.1.json.length + 1 ≤ (n + 1) * 8 ^ c) (hc : c + restLen x.2 ≤ b) : Roomy n b x := by
  unfold Roomy
  refine Nat.le_trans (Nat.mul_le_mul_right _ h) ?_
  rw [Nat.mul_assoc, ← Nat.pow_add]
  exact room_mono hc

theorem fits_piece {n : Nat} {v : Value} {p : Path} (h : v.json.length ≤ n) : Roomy n (fullLen p) (v, p) := by
  refine roomy_of (c := 0) (by simpa using h) ?_
  have := restLen_le p
  unfold fullLen
  simp only; omega

theorem getIn_size {v w : Value} {path : Bytes} (hv : OneText v) (hg : Bounded path) (h : Gjson.getIn get v path = .ok w) :
    w.json.length + 1 ≤ (v.json.length + 1) * 8 ^ path.length := by
  have hs := getIn_same hv path
  rw [h] at hs
  generalize hx : get v.json path = x at hs
  cases hs with
  | @ok _ b hs =>
    have := hg _ _ hx
    rwa [hs.json]

theorem gArrVals_fits {m : Nat} (ih : ∀ q : Bytes, q.length < m → Bounded q)
    {path : Path} (hr : path.sep ≠ 0 → path.extra.length < m) {n : Nat}
    {vals : List Value} (hv : ∀ v ∈ vals, v.json.length ≤ n ∧ OneText v) (hw : mass vals ≤ 2 * n) (hl : vals.length ≤ n) {x : Value × Path}
    (h : gArrVals get path vals = .ok x) : Roomy n (fullLen path) x := by
  have hidx : ∀ k : Int, (if k < 0 then Value.default else vals.getD k.toNat Value.default).json.length ≤ n := by
    intro k
    split
    · simp [Value.json, Value.default]
    · rw [List.getD_eq_getElem?_getD]
      cases hk : vals[k.toNat]? with
      | none => simp [Value.json, Value.default]
      | some v => exact (hv v (List.mem_of_getElem? hk)).1
  have hg : path.sep = c! '.' → ∀ v ∈ vals, ∀ w, Gjson.getIn get v (pGroup path).1 = .ok w →
      w.json.length + 1 ≤ (v.json.length + 1) * 8 ^ (pGroup path).1.length := by
    intro hs v hvv w hw
    refine getIn_size (hv v hvv).2 (ih _ ?_) hw
    have := (pGroup_ok path hs).pre.length_le
    have := hr (by rw [hs]; decide)
    omega
  have hmap : ∀ l, path.comp ≠ [] → path.sep = c! '.' → mass l ≤ mass vals * 8 ^ (pGroup path).1.length → Roomy n (fullLen path) (arrayOf l, (pGroup path).2) := by
    intro l hc hs hwl
    have h1 := pGroup_len path hs
    have h2 : pathRank path = path.extra.length + 1 := by unfold pathRank; rw [if_neg (by rw [hs]; decide)]
    have h3 := restLen_le (pGroup path).2
    have h4 := List.length_pos_iff.2 hc
    refine roomy_of (c := (pGroup path).1.length + 1) ?_ (by unfold fullLen; simp only; omega)
    have h5 := arrayOf_length l
    rw [room_succ]
    have h6 := Nat.mul_le_mul_right (8 ^ (pGroup path).1.length) hw
    have h7 := room_ge n (pGroup path).1.length
    rw [Nat.mul_assoc] at h6
    rw [Nat.add_mul] at h7 ⊢
    simp only
    omega
  have hall : ∀ l, path.comp ≠ [] → mass l ≤ mass vals → Roomy n (fullLen path) (arrayOf l, path) := by
    intro l hc hwl
    have h3 := restLen_le path
    have h4 := List.length_pos_iff.2 hc
    refine roomy_of (c := 1) ?_ (by unfold fullLen; simp only; omega)
    have h5 := arrayOf_length l
    simp only
    omega
  unfold Gjson.gArrVals at h
  simp only at h
  split at h
  · cases h; exact fits_piece (hidx _)
  · rename_i c t hcomp
    have hne : path.comp ≠ [] := by rw [hcomp]; simp
    split at h
    · split at h
      · split at h
        · rename_i hs
          obtain ⟨l, h1, h2⟩ := bind_eq_ok.1 h
          cases h2
          refine hmap l hne hs (collectR_mass ?_ h1)
          intro v hvv w hw
          obtain ⟨w', h3, h4⟩ := bind_eq_ok.1 hw
          cases h4
          exact hg hs v hvv w h3
        · cases h
          have h3 := restLen_le path
          have h4 := List.length_pos_iff.2 hne
          refine roomy_of (c := 1) ?_ (by unfold fullLen; simp only; omega)
          have := natDec_len vals.length
          simp only [mkOwned_json]
          omega
      · split at h
        · obtain ⟨l, h1, h2⟩ := bind_eq_ok.1 h
          cases h2
          by_cases hs : path.sep = c! '.'
          · refine hmap l hne hs (collectR_mass ?_ h1)
            intro v hvv w hw
            obtain ⟨b, _, hw⟩ := bind_eq_ok.1 hw
            split at hw
            · obtain ⟨w', h3, h4⟩ := bind_eq_ok.1 hw
              cases h4
              exact hg hs v hvv w h3
            · simp at hw
          · rw [pGroup_no path hs]
            refine hall l hne ?_
            have := collectR_mass (c := 1) ?_ h1
            · simpa using this
            intro v hvv w hw
            obtain ⟨b, _, hw⟩ := bind_eq_ok.1 hw
            split at hw
            · cases hw; simp
            · simp at hw
        · obtain ⟨l, h1, h2⟩ := bind_eq_ok.1 h
          cases h2
          rcases findR_exists h1 with h3 | h3
          · exact fits_piece (hv _ h3).1
          · rw [h3]; exact fits_piece (by simp [Value.json, Value.default])
    · cases h; exact fits_piece (hidx _)

theorem gArr_fits {m : Nat} (ih : ∀ q : Bytes, q.length < m → Bounded q)
    {path : Path} (hr : path.sep ≠ 0 → path.extra.length < m) {s : Bytes} {L : Nat} {lines : Bool} {x : Value × Path}
    (h : gArr get L lines path s = .ok x) : Roomy s.length (fullLen path) x := by
  unfold Gjson.gArr at h
  have hw := eachToks_mass (L - s.length) lines s
  exact gArrVals_fits ih hr (fun v hv => ⟨eachToks_each hv, (eachToks_prov _ _ _ v hv).oneText⟩) hw.1 hw.2 h

theorem gObjLoop_each {Q : Value × Path → Prop} {d : Bytes → Res (Value × Path)} {p : Path} (L : Nat) :
    ∀ (s : Bytes), (∀ v, Piece s v → Q (v, p)) →
      (∀ t, t <:+ s → ∀ x, p.dives = true → d t = .ok x → Q x) →
      ∀ x, gObjLoop d L p s = .ok x → Q x := by
  intro s
  generalize hn : s.length = n
  induction n using Nat.strongRecOn generalizing s with
  | ind n ih =>
    intro hq' hd x h
    cases s with
    | nil => rw [gObjLoop_nil] at h; cases h; exact hq' _ (piece_default _)
    | cons c r =>
      have next : ∀ t, t <:+ c :: r → t.length < n → gObjLoop d L p t = .ok x → Q x := by
        intro t ht hl hx
        exact ih t.length hl t rfl (fun v hv => hq' v (hv.mono ht.isInfix)) (fun u hu => hd u (hu.trans ht)) x hx
      by_cases h1 : c = c! '}'
      · subst h1; rw [gObjLoop_close] at h; cases h; exact hq' _ (piece_default _)
      by_cases h2 : c = c! '"'
      · subst h2
        cases hq : qStr r with
        | none => rw [gObjLoop_nokey _ _ _ hq] at h; cases h; exact hq' _ (piece_default _)
        | some y =>
          obtain ⟨b, f, q⟩ := y
          have hql := qStr_lt hq
          have hqs : q <:+ r := ⟨b, (qStr_append hq).symm⟩
          cases hv : pSkipColon q with
          | nil => rw [gObjLoop_noval _ _ _ hq hv] at h; cases h; exact hq' _ (piece_default _)
          | cons c2 r2 =>
            have hle := pSkipColon_le q
            have hss : c2 :: r2 <:+ c! '"' :: r := (hv ▸ pSkipColon_suffix q).trans (hqs.trans (List.suffix_cons _ _))
            have hlt : (c2 :: r2).length < n := by rw [hv] at hle; simp only [List.length_cons] at hn hle ⊢; omega
            have hts := (leafTok_suffix (s := c2 :: r2) (by simp)).trans hss
            have htl : (leafTok (c2 :: r2)).2.length < n := by
              have := leafTok_lt (s := c2 :: r2) (by simp); omega
            have hp : Q (tokVal (L - (c2 :: r2).length) (leafTok (c2 :: r2)).1, p) :=
              hq' _ ((tok_piece _ _).mono hss.isInfix)
            rw [gObjLoop_key _ _ _ hq hv] at h
            split at h
            · split at h
              · rename_i hdv
                obtain ⟨⟨res, p'⟩, h3, h4⟩ := bind_eq_ok.1 h
                simp only at h4
                split at h4
                · cases h4; exact hd _ hss _ hdv.1 h3
                · exact next _ hss hlt h4
              · split at h
                · cases h; exact hp
                · exact next _ hts htl h
            · exact next _ hts htl h
      · rw [gObjLoop_skip _ _ _ _ h1 h2] at h
        exact next r (List.suffix_cons _ _) (by simp at hn; omega) h

theorem Piece.len {s : Bytes} {v : Value} (h : Piece s v) : v.json.length ≤ s.length := by
  rw [h.json]; exact h.2.1.length_le

theorem gObj_fits {m : Nat} (ih : ∀ q : Bytes, q.length < m → Bounded q) {L : Nat} :
    ∀ (k : Nat) {path : Path}, pathRank path < k → (path.sep ≠ 0 → path.extra.length < m) →
    ∀ {s : Bytes} {x : Value × Path}, gObj get L path s = .ok x → Roomy s.length (fullLen path) x
  | 0, _, h, _, _, _, _ => by omega
  | k + 1, path, hk, hr, s, x, h => by
    rw [gObj.eq_def] at h
    cases s with
    | nil => cases h; exact fits_piece (by simp [Value.json, Value.default])
    | cons c r =>
      simp only at h
      split at h
      · cases h; exact fits_piece (by simp [Value.json, Value.default])
      · refine gObjLoop_each (Q := fun x => Roomy (c :: r).length (fullLen path) x) L r
          (fun v hv => fits_piece (by have := hv.len; simp only [List.length_cons]; omega)) ?_ x h
        intro t hsuf y hd hy
        rw [dif_pos hd] at hy
        have hrank := pathRank_next hd
        have h0 : path.sep ≠ 0 := by
          have : path.sep = c! '.' := by unfold Path.dives at hd; simp at hd; exact hd.1.1
          rw [this]; decide
        have hr' : (pNext path.extra).sep ≠ 0 → (pNext path.extra).extra.length < m := by
          intro h1
          have := (pNext_ok path.extra).lt h1
          have := hr h0
          omega
        have hfl : fullLen (pNext path.extra) ≤ fullLen path := by
          have := fullLen_next path.extra
          have h2 : pathRank path = path.extra.length + 1 := by unfold pathRank; rw [if_neg h0]
          unfold fullLen at this ⊢
          omega
        have hsl : t.length ≤ (c :: r).length := by have := hsuf.length_le; simp only [List.length_cons]; omega
        split at hy
        · exact (gObj_fits ih k (by omega) hr' hy).mono hsl hfl
        · exact (gArr_fits ih hr' hy).mono hsl hfl

theorem gStart_fits {m : Nat} (ih : ∀ q : Bytes, q.length < m → Bounded q) {L : Nat}
    {path : Path} (hr : path.sep ≠ 0 → path.extra.length < m) :
    ∀ {s : Bytes} {x : Value × Path}, gStart get L path s = .ok x → Roomy s.length (fullLen path) x
  | [], x, h => by cases h; exact fits_piece (by simp [Value.json, Value.default])
  | c :: r, x, h => by
    unfold Gjson.gStart at h
    split at h
    · exact (gStart_fits ih hr h).mono (by simp) (Nat.le_refl _)
    split at h
    · exact gObj_fits ih _ (Nat.lt_succ_self _) hr h
    split at h
    · exact gArr_fits ih hr h
    · cases h; exact fits_piece (by simp [Value.json, Value.default])

/-! ### Multipaths -/

theorem keyForPath_len {p k : Bytes} (h : keyForPath p = .ok k) : k.length ≤ p.length := by
  unfold keyForPath at h
  obtain ⟨k', h4, h⟩ := bind_eq_ok.1 h
  cases h
  have h5 := (nameOfLastLoop_cut h4).infix.length_le
  split
  · exact h5
  · rename_i hs
    cases k' with
    | nil => simp [isSimpleName] at hs
    | cons c r => simp only [List.length_cons] at h5 ⊢; simp; omega

theorem compAt_lens {path : Bytes} {s i : Nat} {c : Option Nat} {k p : Bytes} (h : compAt path s i c = .ok (k, p)) :
    s ≤ i ∧ k.length + s ≤ i ∧ p.length + s ≤ i ∧ p.length ≤ path.length := by
  unfold compAt at h
  split at h
  · obtain ⟨a, h1, h⟩ := bind_eq_ok.1 h
    obtain ⟨b, h2, h⟩ := bind_eq_ok.1 h
    cases h
    have := slice_len h1
    have := slice_len h2
    omega
  · obtain ⟨a, h1, h⟩ := bind_eq_ok.1 h
    obtain ⟨b, h2, h⟩ := bind_eq_ok.1 h
    cases h
    have := slice_len h1
    have := keyForPath_len h2
    omega

/-- What grows with each component by no more than a member does, stays within the room for the path. -/
theorem eachCompLoop_len {path : Bytes} {f : Bytes × Nat → Bytes → Bytes → Res (Bytes × Nat)} {m : Nat}
    (hf : ∀ st k p st', p.length ≤ path.length → f st k p = .ok st' → st'.1.length ≤ st.1.length + (6 * k.length + 4) + (m + 1) * 8 ^ p.length) :
    ∀ (n i : Nat) (c : Option Nat) (s : Nat) (st st' : Bytes × Nat), s ≤ path.length → st.1.length ≤ (m + 1) * 8 ^ s →
      eachCompLoop path f n i c s st = .ok st' → st'.1.length ≤ (m + 1) * 8 ^ (path.length + 1)
  | 0, _, _, _, _, _, _, _, h => by simp [eachCompLoop, outOfFuel] at h
  | n + 1, i, c, s, st, st', hs, hst, h => by
    have step : ∀ {k p st1}, compAt path s i c = .ok (k, p) → f st k p = .ok st1 → st1.1.length ≤ (m + 1) * 8 ^ (i + 1) := by
      intro k p st1 h1 h2
      obtain ⟨a1, a2, a3, a4⟩ := compAt_lens h1
      have b1 := hf _ _ _ _ a4 h2
      have b2 : (m + 1) * 8 ^ s ≤ (m + 1) * 8 ^ i := room_mono a1
      have b3 : (m + 1) * 8 ^ p.length ≤ (m + 1) * 8 ^ i := room_mono (by omega)
      have b4 := lin_pow8 k.length
      have b5 : 8 ^ k.length ≤ 8 ^ i := pow8_mono (by omega)
      have b6 := room_ge_pow m i
      rw [room_succ]
      omega
    unfold eachCompLoop at h
    split at h
    · rename_i hi
      obtain ⟨⟨k, p⟩, h1, h2⟩ := bind_eq_ok.1 h
      rw [← hi]
      exact step h1 h2
    · obtain ⟨ch, hch, h⟩ := bind_eq_ok.1 h
      have hi : i < path.length := by
        unfold idx at hch
        split at hch
        · rename_i hx
          obtain ⟨hlt, _⟩ := List.getElem?_eq_some_iff.1 hx
          exact hlt
        · simp at hch
      simp only at h
      split at h
      · split at h
        · cases h; exact Nat.le_trans hst (room_mono (by omega))
        · exact eachCompLoop_len hf n _ _ _ _ _ hs hst h
      split at h
      · obtain ⟨⟨a, b⟩, _, h2⟩ := bind_eq_ok.1 h
        exact eachCompLoop_len hf n _ _ _ _ _ hs hst h2
      split at h
      · obtain ⟨⟨k, p⟩, h1, h2⟩ := bind_eq_ok.1 h
        obtain ⟨st1, h3, h4⟩ := bind_eq_ok.1 h2
        exact eachCompLoop_len hf n _ _ _ _ _ hi (step h1 h3) h4
      split at h
      · exact eachCompLoop_len hf n _ _ _ _ _ hs hst h
      · exact eachCompLoop_len hf n _ _ _ _ _ hs hst h

theorem multi_fits {m : Nat} (ih : ∀ q : Bytes, q.length < m → Bounded q) {j : Bytes}
    {path : Path} (hl : path.comp.length ≤ m) {x : Value × Path}
    (h : multiExec get j path = .ok x) : Roomy j.length (fullLen path) x := by
  have hnil : Roomy j.length (fullLen path) (Value.default, Path.empty) := by
    refine roomy_of (c := 0) (by simp [Value.json, Value.default]) ?_
    simp [restLen, Path.empty]
  have hdone : ∀ {z : UInt8} {out q : Bytes} {info}, slice path.comp 1 (path.comp.length - 1) = .ok q → out.length ≤ (j.length + 1) * 8 ^ (q.length + 1) →
      Roomy j.length (fullLen path) (mkOwned (out ++ [z]) none info, path) := by
    intro z out q info hq ho
    have h1 := slice_len hq
    have h3 := restLen_le path
    have h4 : q.length + 2 ≤ path.comp.length ∨ path.comp.length ≤ 1 := by omega
    rcases h4 with h4 | h4
    · refine roomy_of (c := q.length + 2) ?_ (by unfold fullLen; simp only; omega)
      rw [mkOwned_json, room_succ]
      have := room_ge j.length (q.length + 1)
      simp only [List.length_append, List.length_cons, List.length_nil]
      omega
    · omega
  have hpush : ∀ (st : Bytes × Nat) (v : Value), (pushValue st v).1.length ≤ st.1.length + 1 + v.json.length := by
    intro st v
    unfold pushValue
    split
    · split <;> simp <;> omega
    · omega
  have hpush2 : ∀ (st : Bytes × Nat) (k : Bytes) (v : Value), (pushMember st k v).1.length ≤ st.1.length + (6 * k.length + 4) + v.json.length := by
    intro st k v
    have := jsonString_length k
    unfold pushMember
    split
    · split <;> simp <;> omega
    · omega
  have inner : ∀ {q : Bytes}, slice path.comp 1 (path.comp.length - 1) = .ok q → q.length < m := by
    intro q hq
    have := slice_len hq
    omega
  unfold multiExec at h
  obtain ⟨a, ha, h⟩ := bind_eq_ok.1 h
  split at h
  · unfold execArr at h
    obtain ⟨b, hb, h⟩ := bind_eq_ok.1 h
    split at h
    · cases h; exact hnil
    · obtain ⟨⟨out, k⟩, h1, h2⟩ := bind_eq_ok.1 h
      unfold eachComp at h1
      split at h1
      · simp [rpanic] at h1
      · obtain ⟨q, hq, h1⟩ := bind_eq_ok.1 h1
        have := eachCompLoop_len (m := j.length) (by
          intro st k p st' hp hf
          obtain ⟨res, hres, hf⟩ := bind_eq_ok.1 hf
          cases hf
          have := ih p (by have := inner hq; omega) _ _ hres
          have := hpush st res
          omega) _ _ _ _ _ _ (Nat.zero_le _) (by simp) h1
        simp only at h2
        rw [jsonFromOwned_eq] at h2
        cases h2
        exact hdone hq this
  · unfold execObj at h
    obtain ⟨b, hb, h⟩ := bind_eq_ok.1 h
    split at h
    · cases h; exact hnil
    · obtain ⟨⟨out, k⟩, h1, h2⟩ := bind_eq_ok.1 h
      unfold eachComp at h1
      split at h1
      · simp [rpanic] at h1
      · obtain ⟨q, hq, h1⟩ := bind_eq_ok.1 h1
        have := eachCompLoop_len (m := j.length) (by
          intro st k p st' hp hf
          obtain ⟨res, hres, hf⟩ := bind_eq_ok.1 hf
          cases hf
          have := ih p (by have := inner hq; omega) _ _ hres
          have := hpush2 st k res
          omega) _ _ _ _ _ _ (Nat.zero_le _) (by simp) h1
        simp only at h2
        rw [jsonFromOwned_eq] at h2
        cases h2
        exact hdone hq this

/-- The bound on every result, given it for the modifiers. -/
theorem get_bounded (hmod : ∀ (path : Bytes) (j out : Bytes), (pNext path).isModifier = true →
      modApply get (modName (pNext path)) j (modArg (pNext path)) = .ok out → out.length + 1 ≤ (j.length + 1) * 8 ^ (pNext path).comp.length)
    (path : Bytes) : Bounded path := by
  generalize hn : path.length = n
  induction n using Nat.strongRecOn generalizing path with
  | ind n ih =>
    have ih : ∀ q : Bytes, q.length < n → Bounded q := fun q hq => ih _ hq q rfl
    intro json v h
    rw [get_eq, getBody] at h
    obtain ⟨⟨res, p⟩, h1, h2⟩ := bind_eq_ok.1 h
    simp only at h2
    have hll := (linesPrefix_suffix path).length_le
    have hr : (pNext (linesPrefix path).1).sep ≠ 0 → (pNext (linesPrefix path).1).extra.length < n := by
      intro hx
      have := (pNext_ok (linesPrefix path).1).lt hx
      omega
    have hfl : fullLen (pNext (linesPrefix path).1) ≤ path.length := by
      have := fullLen_next (linesPrefix path).1; omega
    have hres : Roomy json.length path.length (res, p) := by
      have h3 := h1
      rw [getFirst_eq] at h3
      simp only at h3
      split at h3
      · exact (gArr_fits ih hr h3).mono (Nat.le_refl _) hfl
      split at h3
      · rename_i hm
        have hok := pNext_ok (linesPrefix path).1
        rw [modExec_eq hok hm] at h3
        obtain ⟨out, h4, h5⟩ := bind_eq_ok.1 h3
        cases h5
        have h6 := hmod _ _ _ hm h4
        have h7 := (pParse_infix 0 out).length_le
        refine Roomy.mono (roomy_of (c := (pNext (linesPrefix path).1).comp.length) ?_ ?_) (Nat.le_refl _) hfl
        · simp only
          rw [jsonIntoOwned_json (pParse_oneText out 0)]
          omega
        · have := restLen_le (pNext (linesPrefix path).1)
          unfold fullLen
          simp only; omega
      split at h3
      · rename_i hm
        have := (pNext_ok (linesPrefix path).1).comp.length_le
        exact (multi_fits ih (by omega) h3).mono (Nat.le_refl _) hfl
      · exact (gStart_fits ih hr h3).mono (Nat.le_refl _) hfl
    unfold Roomy at hres
    simp only at hres
    split at h2
    · cases h2
      exact Nat.le_trans (Nat.le_mul_of_pos_right _ (pow8_pos _)) hres
    · rename_i hm
      have hsep : p.sep ≠ 0 := by simpa [Path.more] using hm
      have hlt := getFirst_rest h1 hsep
      simp only at hlt
      have := getIn_size (getFirst_prov h1).oneText (ih p.extra (by omega)) h2
      unfold restLen at hres
      rw [if_neg hsep] at hres
      exact Nat.le_trans this hres

end Gjson
