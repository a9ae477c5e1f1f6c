import Verif.Lemmas.Prov
import Verif.Lemmas.Order
import Verif.Lemmas.Ugly
import Verif.Lemmas.Num
/-
The values on which every accessor works. A value is unusable exactly when it is
the `String` that `parse` makes of an unclosed quote.
-/
namespace Gjson

/-- A value on which no accessor can fail. -/
def Usable (v : Value) : Prop := v.exists = true ∨ v.kind ≠ .string

/-- The text does not start (after blanks) with an unclosed string. -/
def nu : Bytes → Prop
  | [] => True
  | c :: r => if c ≤ c! ' ' then nu r else (c = c! '"' → qStr r ≠ none)

/-- The first token that `pretty` finds in the text is not an unclosed string. -/
def pk : Bytes → Prop
  | [] => True
  | c :: r =>
    if c = c! '"' then qStr r ≠ none
    else if ((c ≥ c! '0' ∧ c ≤ c! '9') ∨ c = c! '-') ∨ c = c! '{' ∨ c = c! '[' ∨ c = c! 't' ∨ c = c! 'f' ∨ c = c! 'n' then True
    else pk r

theorem pk.nu : ∀ {s : Bytes}, pk s → nu s
  | [], _ => trivial
  | c :: r, h => by
    unfold pk at h
    unfold Gjson.nu
    split
    · rename_i hc
      rw [if_neg (by rintro rfl; exact absurd hc (by decide)), if_neg (by grind)] at h
      exact h.nu
    · rintro rfl
      rw [if_pos rfl] at h
      exact h

/-- A value that can be used, and parsed or printed again. -/
structure Clean (v : Value) : Prop where
  use : Usable v
  text : pk v.json

theorem nu_other {c : UInt8} {r : Bytes} (h1 : ¬ c ≤ c! ' ') (h2 : c ≠ c! '"') : nu (c :: r) := by
  unfold nu; rw [if_neg h1]; exact fun h => absurd h h2

theorem pk_start {c : UInt8} {r : Bytes}
    (h : ((c ≥ c! '0' ∧ c ≤ c! '9') ∨ c = c! '-') ∨ c = c! '{' ∨ c = c! '[' ∨ c = c! 't' ∨ c = c! 'f' ∨ c = c! 'n') :
    pk (c :: r) := by
  unfold pk; rw [if_neg (by grind), if_pos h]; trivial

theorem Clean.default : Clean Value.default := ⟨.inr (by decide), trivial⟩

/-- A closed string, taken out of its context, is closed. -/
theorem qStr_self : ∀ {s b q : Bytes} {f : Bool}, qStr s = some (b, f, q) → qStr b ≠ none := by
  intro s
  generalize hn : s.length = n
  induction n using Nat.strongRecOn generalizing s with
  | ind n ih =>
    intro b q f h
    rw [qStr.eq_def] at h
    split at h
    · simp at h
    · rename_i c r
      split at h
      · simp at h; rw [← h.1]; simp [qStr, *]
      · split at h
        · split at h
          · simp at h
          · rename_i d t
            cases ht : qStr t with
            | none => simp [ht, push1, setEsc] at h
            | some x =>
              obtain ⟨b', f', q'⟩ := x
              have := ih t.length (by simp at hn; omega) rfl ht
              simp [ht, push1, setEsc] at h
              obtain ⟨rfl, _⟩ := h
              rw [qStr.eq_def]
              simp only [*]
              simp
              cases hb : qStr b' with
              | none => exact absurd hb this
              | some y => simp [push1, setEsc]
        · cases ht : qStr r with
          | none => simp [ht, push1] at h
          | some x =>
            obtain ⟨b', f', q'⟩ := x
            have := ih r.length (by simp at hn; omega) rfl ht
            simp [ht, push1] at h
            obtain ⟨rfl, _⟩ := h
            rw [qStr.eq_def]
            simp only [*]
            simp
            cases hb : qStr b' with
            | none => exact absurd hb this
            | some y => simp [push1]

theorem tokVal_text (i : Nat) (s : Bytes) : pk (tokVal i (leafTok s).1).json := by
  cases s with
  | nil => trivial
  | cons c r =>
    simp only [leafTok]
    split
    · rename_i hc
      cases hq : qStr r with
      | none => simp [tokVal, pk]
      | some x =>
        obtain ⟨b, f, q⟩ := x
        simp only [tokVal, mkVal_json]
        unfold pk
        rw [if_pos hc]
        exact qStr_self hq
    · rename_i hq
      split
      · rename_i hc
        cases sq 1 false r with
        | none => simp [tokVal, pk]
        | some x => obtain ⟨b, q⟩ := x; simp only [tokVal, mkVal_json]; exact pk_start (by grind)
      split
      · rename_i hc
        simp only [tokVal, mkVal_json]; exact pk_start (by unfold NumStart at *; grind)
      split
      · rename_i hc
        split
        · trivial
        · simp only [tokVal, mkVal_json]; exact pk_start (by rw [hc]; decide)
      split
      · rename_i hc
        split
        · trivial
        · simp only [tokVal, mkVal_json]; exact pk_start (by rw [hc]; decide)
      split
      · rename_i hc
        split
        · trivial
        · simp only [tokVal, mkVal_json]; exact pk_start (by rw [hc]; decide)
      · trivial

theorem tokVal_clean {i : Nat} {s : Bytes} (h : (tokVal i (leafTok s).1).exists = true) :
    Clean (tokVal i (leafTok s).1) := ⟨.inl h, tokVal_text _ _⟩

theorem pParse_text : ∀ (s : Bytes) (i : Nat), pk (pParse i s).json
  | [], _ => trivial
  | c :: r, i => by
    unfold pParse
    split
    · exact pParse_text r _
    split
    · rename_i h; rw [mkVal_json]; exact pk_start (by rw [h]; decide)
    split
    · rename_i h; rw [mkVal_json]; exact pk_start (by rw [h]; decide)
    split
    · exact tokVal_text _ _
    · trivial

/-- A token that does not exist and is not the neutral value comes from an
unclosed string or container. -/
theorem tokVal_use {i : Nat} {c : UInt8} {r : Bytes} (h : c = c! '"' → qStr r ≠ none) :
    Usable (tokVal i (leafTok (c :: r)).1) := by
  simp only [leafTok]
  split
  · rename_i hc
    cases hq : qStr r with
    | none => exact absurd hq (h hc)
    | some x => obtain ⟨b, f, q⟩ := x; left; simp [tokVal]
  split
  · rename_i hc
    have : kindMap ((contBit c <<< 24) >>> 24) ≠ .string := by unfold contBit; split <;> decide
    cases sq 1 false r with
    | none => right; simpa [tokVal] using this
    | some x => obtain ⟨b, q⟩ := x; left; simp [tokVal]
  split
  · left; simp [tokVal]
  split
  · split
    · exact .inr (show Value.default.kind ≠ Kind.string by decide)
    · left; simp [tokVal]
  split
  · split
    · exact .inr (show Value.default.kind ≠ Kind.string by decide)
    · left; simp [tokVal]
  split
  · split
    · exact .inr (show Value.default.kind ≠ Kind.string by decide)
    · left; simp [tokVal]
  · exact .inr (show Value.default.kind ≠ Kind.string by decide)

theorem pParse_use : ∀ (s : Bytes) (i : Nat), nu s → Usable (pParse i s)
  | [], _, _ => .inr (show Value.default.kind ≠ Kind.string by decide)
  | c :: r, i, h => by
    unfold pParse
    unfold nu at h
    split
    · rename_i hc; rw [if_pos hc] at h; exact pParse_use r _ h
    · rename_i hc
      rw [if_neg hc] at h
      split
      · left; simp
      split
      · left; simp
      split
      · exact tokVal_use h
      · exact .inr (show Value.default.kind ≠ Kind.string by decide)

theorem pParse_clean {s : Bytes} (i : Nat) (h : nu s) : Clean (pParse i s) := ⟨pParse_use s i h, pParse_text s i⟩

theorem Clean.owned {v : Value} (h : Clean v) (h1 : OneText v) : Clean (jsonIntoOwned v) := by
  have hj := jsonIntoOwned_json h1
  refine ⟨?_, by rw [hj]; exact h.text⟩
  rcases h.use with hu | hu
  · left; rw [exists_json, hj, ← exists_json]; exact hu
  · right; exact hu

theorem Clean.moved {v : Value} (h : Clean v) (i : Option Nat) : Clean (addIndex i v) := by
  unfold addIndex
  split <;> exact ⟨h.use, h.text⟩

theorem Clean.array (b : Bytes) : Clean (mkOwned (c! '[' :: b) none INFO_ARRAY) :=
  ⟨.inl (by simp), by rw [mkOwned_json]; exact pk_start (by decide)⟩

theorem Clean.object (b : Bytes) : Clean (mkOwned (c! '{' :: b) none INFO_OBJECT) :=
  ⟨.inl (by simp), by rw [mkOwned_json]; exact pk_start (by decide)⟩

/-! ### Decimal numbers -/

theorem isDigit_numCh {c : UInt8} (h : Spec.IsDigit c) : NumCh c := by
  unfold Spec.IsDigit at h; unfold NumCh; grind

theorem natDec_numCh (n : Nat) : ∀ c ∈ natDec n, NumCh c := by
  rw [natDec_eq]; exact fun c hc => isDigit_numCh ((numeral_spec n).2.1 c hc)

theorem natDec_head (n : Nat) : ∃ c r, natDec n = c :: r ∧ Spec.IsDigit c := by
  rw [natDec_eq]
  have h := numeral_spec n
  cases hn : Spec.numeral n with
  | nil => exact absurd hn h.1
  | cons c r => exact ⟨c, r, rfl, h.2.1 c (by rw [hn]; simp)⟩

theorem Clean.count (n : Nat) : Clean (mkOwned (natDec n) none INFO_NUMBER) := by
  obtain ⟨c, r, h, hd⟩ := natDec_head n
  refine ⟨.inl (by rw [h]; simp), ?_⟩
  rw [mkOwned_json, h]
  unfold Spec.IsDigit at hd
  exact pk_start (by grind)

/-! ### Every result is good -/

theorem pParse_good : ∀ (s : Bytes) (i : Nat), GoodVal (pParse i s)
  | [], _ => tokVal_good 0 []
  | c :: r, i => by
    unfold pParse
    split
    · exact pParse_good r _
    split
    · exact ⟨fun _ h => absurd h (by simp; decide), fun h => absurd h (by simp; decide)⟩
    split
    · exact ⟨fun _ h => absurd h (by simp; decide), fun h => absurd h (by simp; decide)⟩
    split
    · exact tokVal_good _ _
    · exact tokVal_good 0 []

theorem Prov.good {v : Value} (h : Prov v) : GoodVal v := by
  induction h with
  | default => exact tokVal_good 0 []
  | tok i s => exact tokVal_good _ _
  | array b => exact ⟨fun _ h => absurd h (by simp; decide), fun h => absurd h (by simp; decide)⟩
  | object b => exact ⟨fun _ h => absurd h (by simp; decide), fun h => absurd h (by simp; decide)⟩
  | count n => exact ⟨fun _ h => absurd h (by simp; decide), fun _ => by rw [mkOwned_json]; exact natDec_numCh n⟩
  | modifier i s => exact pParse_good _ _
  | owned hp ih =>
    have hj := jsonIntoOwned_json hp.oneText
    refine ⟨fun he hk => ?_, fun hk => ?_⟩
    · rw [hj]; rw [exists_json, hj, ← exists_json] at he; exact ih.str he hk
    · rw [hj]; exact ih.num hk
  | moved i _ ih =>
    unfold addIndex
    split <;> exact ⟨ih.str, ih.num⟩

/-! ### Searches -/

theorem toks_clean (i : Nat) (s : Bytes) : ∀ v ∈ toks i s, Clean v := by
  generalize hn : s.length = n
  induction n using Nat.strongRecOn generalizing i s with
  | ind n ih =>
    cases s with
    | nil => simp [toks_nil]
    | cons c r =>
      intro v hv
      by_cases c1 : c ≤ c! ' ' ∨ c = c! ',' ∨ c = c! ':'
      · rw [toks_skip c1] at hv
        exact ih r.length (by simp at hn; omega) _ _ rfl v hv
      by_cases c2 : c = c! '}' ∨ c = c! ']'
      · rw [toks_close c2] at hv; simp at hv
      rw [toks_tok c1 c2] at hv
      split at hv
      · rename_i he
        rcases List.mem_cons.1 hv with rfl | hv
        · exact tokVal_clean he
        · have := leafTok_lt (s := c :: r) (by simp)
          exact ih _ (by omega) _ _ rfl v hv
      · simp at hv

theorem eachToks_clean (i : Nat) (lines : Bool) (s : Bytes) : ∀ v ∈ eachToks i lines s, Clean v := by
  unfold eachToks; split <;> exact toks_clean _ _

theorem gArr_clean {rec : GetFn} {L : Nat} {lines : Bool} {path : Path} {s : Bytes} {x : Value × Path}
    (h : gArr rec L lines path s = .ok x) : Clean x.1 := by
  unfold gArr at h
  have hp := eachToks_clean (L - s.length) lines s
  revert h hp
  generalize eachToks (L - s.length) lines s = vals
  intro h hp
  have hidx : ∀ k : Int, Clean (if k < 0 then Value.default else vals.getD k.toNat Value.default) := by
    intro k
    split
    · exact .default
    · rw [List.getD_eq_getElem?_getD]
      cases hk : vals[k.toNat]? with
      | none => exact .default
      | some v => exact hp v (List.mem_of_getElem? hk)
  unfold gArrVals at h
  simp only at h
  split at h
  · cases h; exact hidx _
  · split at h
    · split at h
      · split at h
        · obtain ⟨l, _, h2⟩ := bind_eq_ok.1 h
          cases h2; exact .array _
        · cases h; exact .count _
      · split at h
        · obtain ⟨l, _, h2⟩ := bind_eq_ok.1 h
          cases h2; exact .array _
        · obtain ⟨l, h1, h2⟩ := bind_eq_ok.1 h
          cases h2
          rcases findR_exists h1 with h3 | h3
          · exact hp _ h3
          · rw [h3]; exact .default
    · cases h; exact hidx _

/-- Like `gObjLoop_ind`, with the values met known to exist. -/
theorem gObjLoop_ind' {dive : Bytes → Res (Value × Path)} {L : Nat} {path : Path} {P : Value × Path → Prop}
    (h0 : P (Value.default, path))
    (h1 : ∀ i s, (tokVal i (leafTok s).1).exists = true → P (tokVal i (leafTok s).1, path))
    (h2 : ∀ s x, dive s = .ok x → path.dives = true → P x) :
    ∀ (s : Bytes) (x : Value × Path), gObjLoop dive L path s = .ok x → P x := by
  intro s
  generalize hn : s.length = n
  induction n using Nat.strongRecOn generalizing s with
  | ind n ih =>
    intro x hx
    cases s with
    | nil => rw [gObjLoop_nil] at hx; cases hx; exact h0
    | cons c r =>
      by_cases c1 : c = c! '}'
      · rw [c1, gObjLoop_close] at hx; cases hx; exact h0
      by_cases c2 : c = c! '"'
      · subst c2
        cases hq : qStr r with
        | none => rw [gObjLoop_nokey _ _ _ hq] at hx; cases hx; exact h0
        | some y =>
          obtain ⟨b, f, q⟩ := y
          cases hv : pSkipColon q with
          | nil => rw [gObjLoop_noval _ _ _ hq hv] at hx; cases hx; exact h0
          | cons c3 r3 =>
            rw [gObjLoop_key _ _ _ hq hv] at hx
            have l1 := qStr_lt hq
            have l2 := pSkipColon_le q
            rw [hv] at l2
            have l3 := leafTok_lt (s := c3 :: r3) (by simp)
            simp only [List.length_cons] at hn l2 l3
            have next := ih (leafTok (c3 :: r3)).2.length (by omega) _ rfl
            split at hx
            · split at hx
              · rename_i hdv
                obtain ⟨⟨res, p⟩, g1, g2⟩ := bind_eq_ok.1 hx
                simp only at g2
                split at g2
                · cases g2; exact h2 _ _ g1 hdv.1
                · exact ih (c3 :: r3).length (by simp only [List.length_cons]; omega) _ rfl _ g2
              · split at hx
                · rename_i he; cases hx; exact h1 _ _ he
                · exact next _ hx
            · exact next _ hx
      · rw [gObjLoop_skip _ _ _ _ c1 c2] at hx
        exact ih r.length (by simp at hn; omega) _ rfl _ hx

theorem gObj_clean {rec : GetFn} {L : Nat} : ∀ (k : Nat) {path : Path}, pathRank path < k →
    ∀ {s : Bytes} {x : Value × Path}, gObj rec L path s = .ok x → Clean x.1
  | 0, _, h, _, _, _ => by omega
  | k + 1, path, hk, s, x, h => by
    rw [gObj.eq_def] at h
    cases s with
    | nil => cases h; exact .default
    | cons c r =>
      simp only at h
      split at h
      · cases h; exact .default
      · refine gObjLoop_ind' (P := fun x => Clean x.1) .default (fun _ _ h => tokVal_clean h) ?_ r x h
        intro v y hy hd
        rw [dif_pos hd] at hy
        have := pathRank_next hd
        split at hy
        · exact gObj_clean k (by omega) hy
        · exact gArr_clean hy

theorem gStart_clean {rec : GetFn} {L : Nat} {path : Path} : ∀ {s : Bytes} {x : Value × Path},
    gStart rec L path s = .ok x → Clean x.1
  | [], x, h => by cases h; exact .default
  | c :: r, x, h => by
    unfold gStart at h
    split at h
    · exact gStart_clean h
    split at h
    · exact gObj_clean _ (Nat.lt_succ_self _) h
    split at h
    · exact gArr_clean h
    · cases h; exact .default

/-! ### Modifiers -/

theorem qStr_ext : ∀ {s b q : Bytes} {f : Bool}, qStr s = some (b, f, q) → ∀ x, qStr (b ++ x) = some (b, f, x) := by
  intro s
  generalize hn : s.length = n
  induction n using Nat.strongRecOn generalizing s with
  | ind n ih =>
    intro b q f h x
    rw [qStr.eq_def] at h
    split at h
    · simp at h
    · rename_i c r
      split at h
      · rename_i hc; simp at h; obtain ⟨rfl, rfl, rfl⟩ := h; subst hc; rw [List.singleton_append, qStr.eq_def]; simp
      · split at h
        · split at h
          · simp at h
          · rename_i d t
            cases ht : qStr t with
            | none => simp [ht, push1, setEsc] at h
            | some y =>
              obtain ⟨b', f', q'⟩ := y
              have := ih t.length (by simp at hn; omega) rfl ht x
              simp [ht, push1, setEsc] at h
              obtain ⟨rfl, rfl, rfl⟩ := h
              simp only [List.cons_append]
              rw [qStr.eq_def]
              simp only [*]
              simp [push1, setEsc]
        · cases ht : qStr r with
          | none => simp [ht, push1] at h
          | some y =>
            obtain ⟨b', f', q'⟩ := y
            have := ih r.length (by simp at hn; omega) rfl ht x
            simp [ht, push1] at h
            obtain ⟨rfl, rfl, rfl⟩ := h
            simp only [List.cons_append]
            rw [qStr.eq_def]
            simp only [*]
            simp [push1]

theorem qStr_sEnd : ∀ {s b q : Bytes} {f : Bool}, qStr s = some (b, f, q) → sEnd false s = (b, q) := by
  intro s
  generalize hn : s.length = n
  induction n using Nat.strongRecOn generalizing s with
  | ind n ih =>
    intro b q f h
    rw [qStr.eq_def] at h
    split at h
    · simp at h
    · rename_i c r
      split at h
      · rename_i hc; simp at h; obtain ⟨rfl, rfl, rfl⟩ := h; simp [sEnd, hc]
      · rename_i hc
        split at h
        · rename_i hb
          split at h
          · simp at h
          · rename_i d t
            cases ht : qStr t with
            | none => simp [ht, push1, setEsc] at h
            | some y =>
              obtain ⟨b', f', q'⟩ := y
              have := ih t.length (by simp at hn; omega) rfl ht
              simp [ht, push1, setEsc] at h
              obtain ⟨rfl, rfl, rfl⟩ := h
              simp [sEnd, hb, this]
        · rename_i hb
          cases ht : qStr r with
          | none => simp [ht, push1] at h
          | some y =>
            obtain ⟨b', f', q'⟩ := y
            have := ih r.length (by simp at hn; omega) rfl ht
            simp [ht, push1] at h
            obtain ⟨rfl, rfl, rfl⟩ := h
            simp [sEnd, hc, hb, this]

theorem pUgly_nu : ∀ (s : Bytes), nu s → nu (pUgly s)
  | [], _ => by rw [pUgly_nil]; trivial
  | c :: r, h => by
    unfold nu at h
    split at h
    · rename_i hc
      rw [pUgly_skip hc]; exact pUgly_nu r h
    · rename_i hc
      by_cases hq : c = c! '"'
      · subst hq
        cases hr : qStr r with
        | none => exact absurd hr (h rfl)
        | some x =>
          obtain ⟨b, f, q⟩ := x
          rw [pUgly_quote, qStr_sEnd hr]
          unfold nu
          rw [if_neg hc]
          simp only
          rw [qStr_ext hr]; simp
      · rw [pUgly_keep hc hq]; exact nu_other hc hq

theorem runFold_ind {σ : Type} {f : σ → Value → Value → Res (σ × Bool)} {P : σ → Prop}
    (hf : ∀ st k v x, P st → f st k v = .ok x → P x.1) :
    ∀ (l : List (Value × Value)) (st st' : σ), P st → runFold f st l = .ok st' → P st'
  | [], st, st', hs, h => by simp [runFold] at h; rw [← h]; exact hs
  | (k, v) :: r, st, st', hs, h => by
    unfold runFold at h
    obtain ⟨⟨s1, more⟩, h1, h2⟩ := bind_eq_ok.1 h
    have := hf _ _ _ _ hs h1
    simp only at h2
    split at h2
    · exact runFold_ind hf r _ _ this h2
    · cases h2; exact this

/-- `each` on a container. -/
theorem each_run {σ : Type} {v : Value} (he : v.exists = true) (hk : v.kind = .object ∨ v.kind = .array)
    (f : σ → Value → Value → Res (σ × Bool)) (st : σ) :
    v.each f st = runFold f st (eachPairs v.kind (eachToks 0 false v.json)) := by
  unfold Value.each
  rw [if_neg (by simp [he]), if_neg (by rcases hk with h | h <;> simp [h])]
  obtain ⟨j, hj⟩ := forEach_at (json := v.json) (kind := v.kind) (f := f) false st (At.zero v.json)
  rw [hj]
  cases runFold f st (eachPairs v.kind (eachToks 0 false v.json)) <;> rfl

theorem each_ind {σ : Type} {v : Value} {f : σ → Value → Value → Res (σ × Bool)} {P : σ → Prop}
    (hf : ∀ st k v x, P st → f st k v = .ok x → P x.1) {st st' : σ} (hs : P st) (h : v.each f st = .ok st') : P st' := by
  unfold Value.each at h
  split at h
  · cases h; exact hs
  split at h
  · obtain ⟨⟨s1, more⟩, h1, h2⟩ := bind_eq_ok.1 h
    cases h2; exact hf _ _ _ _ hs h1
  · obtain ⟨j, hj⟩ := forEach_at (json := v.json) (kind := v.kind) (f := f) false st (At.zero v.json)
    rw [hj] at h
    obtain ⟨⟨s1, more⟩, h1, h2⟩ := bind_eq_ok.1 h
    cases h2
    obtain ⟨s2, h3, h4⟩ := bind_eq_ok.1 h1
    cases h4
    exact runFold_ind hf _ _ _ hs h3

/-- The modifiers other than `@pretty` do not break a string open. -/
theorem modApply_nu {rec : GetFn} {name json arg out : Bytes} (hn : name ≠ b!"pretty") (hj : nu json)
    (h : modApply rec name json arg = .ok out) : nu out := by
  have hbr : ∀ b, nu (c! '[' :: b) := fun b => nu_other (by decide) (by decide)
  have hbc : ∀ b, nu (c! '{' :: b) := fun b => nu_other (by decide) (by decide)
  unfold modApply at h
  split at h
  · cases h; exact hj
  split at h
  · unfold modReverse at h
    rw [parse_eq] at h
    simp only [ok_bind] at h
    split at h
    · obtain ⟨a, _, h2⟩ := bind_eq_ok.1 h; cases h2; exact hbc _
    · obtain ⟨a, _, h2⟩ := bind_eq_ok.1 h; cases h2; exact hbr _
    · cases h
      have := (pParse_text json 0).nu
      have h1 := pParse_oneText json 0
      unfold Value.json at this
      rcases h1 with h1 | h1
      · rw [h1]; trivial
      · rw [h1] at this; simpa using this
  split at h
  · unfold modUgly at h; rw [ugly_eq] at h; cases h; exact pUgly_nu _ hj
  split at h
  · unfold modValid at h
    obtain ⟨a, _, h2⟩ := bind_eq_ok.1 h
    split at h2
    · cases h2; exact hj
    · cases h2; trivial
  split at h
  · unfold modFlatten modFlattenN at h
    rw [parse_eq] at h
    simp only [ok_bind] at h
    split at h
    · cases h; exact hj
    · obtain ⟨a, _, h2⟩ := bind_eq_ok.1 h
      obtain ⟨b, _, h3⟩ := bind_eq_ok.1 h2
      obtain ⟨⟨o, m⟩, h4, h5⟩ := bind_eq_ok.1 h3
      have := each_ind (P := fun st : Bytes × Nat => ∃ q, st.1 = c! '[' :: q) (by
        rintro st k v x ⟨q, hq⟩ hf
        obtain ⟨raw, _, hf⟩ : ∃ raw : Bytes, True ∧ (if raw.length > 0 then
            (.ok (((if st.2 > 0 then st.1 ++ [c! ','] else st.1) ++ raw, st.2 + 1), true) : Res ((Bytes × Nat) × Bool))
          else .ok (st, true)) = .ok x := by
          split at hf
          · split at hf
            · obtain ⟨i, _, hf⟩ := bind_eq_ok.1 hf
              exact ⟨_, trivial, hf⟩
            · exact ⟨_, trivial, hf⟩
          · exact ⟨_, trivial, hf⟩
        split at hf
        · cases hf
          simp only
          split <;> exact ⟨_, by rw [hq]; rfl⟩
        · cases hf; exact ⟨q, hq⟩) ⟨[], rfl⟩ h4
      obtain ⟨q, hq⟩ := this
      cases h5
      simp only at hq
      rw [hq]; exact hbr _
  split at h
  · unfold modJoin at h
    rw [parse_eq] at h
    simp only [ok_bind] at h
    split at h
    · cases h; exact hj
    · obtain ⟨a, _, h2⟩ := bind_eq_ok.1 h
      obtain ⟨b, _, h3⟩ := bind_eq_ok.1 h2
      split at h3
      · obtain ⟨⟨o, m⟩, h4, h5⟩ := bind_eq_ok.1 h3
        have := each_ind (P := fun st : Bytes × Nat => ∃ q, st.1 = c! '{' :: q) (by
          rintro st k v x ⟨q, hq⟩ hf
          split at hf
          · cases hf; exact ⟨q, hq⟩
          · cases hf
            simp only
            split <;> exact ⟨_, by rw [hq]; rfl⟩) ⟨[], rfl⟩ h4
        obtain ⟨q, hq⟩ := this
        cases h5
        simp only at hq
        rw [hq]; exact hbc _
      · obtain ⟨⟨o, m⟩, h4, h5⟩ := bind_eq_ok.1 h3
        obtain ⟨m, _, h6⟩ := bind_eq_ok.1 h5
        cases h6; exact hbc _
  · cases h; trivial

end Gjson
