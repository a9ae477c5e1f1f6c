import Verif.Lemmas.Closed
import Verif.Lemmas.Keep
import Verif.Lemmas.Kept
import Verif.SpecInk
/-
The bytes of a result.
-/
namespace Gjson
open Spec

/-- All bytes of the text are in the set. -/
def Of (B : UInt8 → Prop) (s : Bytes) : Prop := ∀ b ∈ s, B b

section
variable {B : UInt8 → Prop}

theorem of_nil : Of B [] := by intro b h; simp at h

theorem Of.append {s t : Bytes} (h1 : Of B s) (h2 : Of B t) : Of B (s ++ t) := by
  intro b h
  rcases List.mem_append.1 h with h | h
  · exact h1 b h
  · exact h2 b h

theorem Of.cons {c : UInt8} {s : Bytes} (h1 : B c) (h2 : Of B s) : Of B (c :: s) := by
  intro b h
  rcases List.mem_cons.1 h with rfl | h
  · exact h1
  · exact h2 b h

theorem Of.left {s t : Bytes} (h : Of B (s ++ t)) : Of B s := fun b hb => h b (List.mem_append_left _ hb)
theorem Of.right {s t : Bytes} (h : Of B (s ++ t)) : Of B t := fun b hb => h b (List.mem_append_right _ hb)
theorem Of.tail {c : UInt8} {t : Bytes} (h : Of B (c :: t)) : Of B t := fun b hb => h b (by simp [hb])

theorem Of.infix {s t : Bytes} (h : Of B s) (hi : t <:+: s) : Of B t := fun b hb => h b (hi.subset hb)

theorem slice_infix {b r : Bytes} {s e : Nat} (h : slice b s e = .ok r) : r <:+: b := by
  unfold slice at h
  split at h
  · cases h; exact sub_infix _ _ _
  · simp at h

theorem sliceFrom_infix {b r : Bytes} {s : Nat} (h : sliceFrom b s = .ok r) : r <:+: b := by
  unfold sliceFrom at h
  split at h
  · cases h; exact (List.drop_suffix _ _).isInfix
  · simp at h

section Pretty

variable (hB : ∀ b ∈ prettyInk, B b)
include hB

theorem of_pretty_ink {s : Bytes} (h : ∀ b ∈ s, b ∈ prettyInk) : Of B s := fun b hb => hB b (h b hb)

/-! ### `pretty` -/

omit hB in
/-- The output of a printer function is made of the bytes. -/
theorem pUgly_of : ∀ (n : Nat) (s : Bytes), s.length ≤ n → Of B s → Of B (pUgly s)
  | _, [], _, _ => by rw [pUgly_nil]; exact of_nil
  | 0, c :: r, h, _ => by simp at h
  | n + 1, c :: r, hn, h => by
    have hn : r.length ≤ n := by simpa using hn
    by_cases h1 : c ≤ c! ' '
    · rw [pUgly_skip h1]; exact pUgly_of n r hn h.tail
    by_cases h2 : c = c! '"'
    · subst h2
      rw [pUgly_quote]
      have he := sEnd_append r false
      have ht : Of B ((sEnd false r).1 ++ (sEnd false r).2) := by rw [he]; exact h.tail
      have := sEnd_le r false
      exact .cons (h _ (by simp)) (ht.left.append (pUgly_of n _ (by omega) ht.right))
    · rw [pUgly_keep h1 h2]
      exact .cons (h _ (by simp)) (pUgly_of n r hn h.tail)

omit hB in
theorem ugly_of {s t : Bytes} (h : Of B s) (hu : ugly s = .ok t) : Of B t := by
  rw [ugly_eq] at hu; cases hu; exact pUgly_of _ _ (Nat.le_refl _) h

/-- The output is made of the bytes. -/
def Inked (B : UInt8 → Prop) (r : PRes) : Prop := ∀ x, r = .ok x → Of B x.1

omit hB in
theorem repeat_of {b : Bytes} (h : Of B b) : ∀ n, Of B (repeatBytes n b)
  | 0 => of_nil
  | n + 1 => h.append (repeat_of h n)

/-- The options are made of the bytes. -/
def ArgsOf (B : UInt8 → Prop) (a : PArgs) : Prop := Of B a.pfx ∧ Of B a.indent

omit hB in
theorem extendTabs_of {buf pfx indent : Bytes} {tabs : Int} (h : Of B buf) (hp : Of B pfx) (hi : Of B indent) :
    Of B (extendTabs buf pfx indent tabs) := by
  unfold extendTabs
  refine Of.append ?_ (repeat_of hi _)
  split
  · exact h.append hp
  · exact h

omit hB in
theorem prettyString_of {buf json : Bytes} {i : Nat} {nl : Int} (hj : Of B json) (h : Of B buf) : Inked B (prettyString buf json i nl) := by
  intro x hx
  unfold prettyString at hx
  obtain ⟨e, _, hx⟩ := bind_eq_ok.1 hx
  obtain ⟨v, h2, hx⟩ := bind_eq_ok.1 hx
  cases hx; exact h.append (hj.infix (slice_infix h2))

omit hB in
theorem prettyNumber_of {buf json : Bytes} {i : Nat} {nl : Int} (hj : Of B json) (h : Of B buf) : Inked B (prettyNumber buf json i nl) := by
  intro x hx
  unfold prettyNumber at hx
  obtain ⟨e, _, hx⟩ := bind_eq_ok.1 hx
  obtain ⟨v, h2, hx⟩ := bind_eq_ok.1 hx
  cases hx; exact h.append (hj.infix (slice_infix h2))

theorem prettySep_of {opn : UInt8} {a : PArgs} {buf : Bytes} {n : Nat} (h : Of B buf) : Of B (prettySep opn a buf n) := by
  unfold prettySep
  split
  · split
    · exact (h.append (of_pretty_ink hB (by decide))).append (of_pretty_ink hB (by decide))
    · exact h.append (of_pretty_ink hB (by decide))
  · exact h

theorem prettyLine_of {a : PArgs} {nl : Int} {buf : Bytes} (h : Of B buf) {x : Int × Bytes} (hx : prettyLine a nl buf = .ok x) : Of B x.2 := by
  unfold prettyLine at hx
  split at hx
  · obtain ⟨l, h1, h2⟩ := bind_eq_ok.1 hx
    cases h2
    simp only
    split
    · exact (h.infix (List.take_prefix _ _).isInfix).append (of_pretty_ink hB (by decide))
    · exact h.append (of_pretty_ink hB (by decide))
  · cases hx; exact h

theorem closeLine_of {nl : Int} {buf : Bytes} {n : Nat} (h : Of B buf) {x : Int × Bytes} (hx : closeLine nl buf n = .ok x) : Of B x.2 := by
  unfold closeLine at hx
  split at hx
  · obtain ⟨l, _, h2⟩ := bind_eq_ok.1 hx
    cases h2
    simp only
    split
    · exact h.append (of_pretty_ink hB (by decide))
    · exact h
  · cases hx; exact h

theorem prettyKey_of {json : Bytes} {opn : UInt8} {a : PArgs} {buf : Bytes} {i : Nat} {nl : Int} (hj : Of B json) (h : Of B buf)
    {x : Bytes × Nat × Int × Nat} (hx : prettyKey json opn a buf i nl = .ok x) : Of B x.1 := by
  unfold prettyKey at hx
  split at hx
  · obtain ⟨⟨b, j, l, k⟩, h1, h2⟩ := bind_eq_ok.1 hx
    have := prettyString_of hj h _ h1
    cases h2
    simp only at this ⊢
    split
    · exact (this.append (of_pretty_ink hB (by decide))).append (of_pretty_ink hB (by decide))
    · exact this.append (of_pretty_ink hB (by decide))
  · cases hx; exact h

theorem joinPairs_of {buf : Bytes} (h : Of B buf) : ∀ {l : List Pair} {r : Bytes}, joinPairs buf l = .ok r → Of B r
  | [], r, hr => by cases hr; exact of_nil
  | [p], r, hr => h.infix (slice_infix hr)
  | p :: q :: l, r, hr => by
    unfold joinPairs at hr
    obtain ⟨v, h1, hr⟩ := bind_eq_ok.1 hr
    obtain ⟨s, h2, hr⟩ := bind_eq_ok.1 hr
    cases hr
    exact ((h.infix (slice_infix h1)).append (of_pretty_ink hB (by decide))).append (joinPairs_of h h2)

theorem prettyClose_of {json buf : Bytes} {opn cls : UInt8} {a : PArgs} {tabs : Int} {i : Nat} {nl : Int} {pairs : List Pair} {n : Nat}
    (ha : ArgsOf B a) (hc : B cls) (h : Of B buf) : Inked B (prettyClose json opn cls a tabs i nl buf pairs n) := by
  intro x hx
  unfold prettyClose at hx
  have hcls : Of B [cls] := .cons hc of_nil
  split at hx
  · obtain ⟨b1, h1, hx⟩ := bind_eq_ok.1 hx
    have g1 : Of B b1 := by
      unfold closeSort at h1
      split at h1
      · unfold sortPairs at h1
        split at h1
        · cases h1; exact h
        · obtain ⟨l, _, h1⟩ := bind_eq_ok.1 h1
          obtain ⟨nb, h2, h1⟩ := bind_eq_ok.1 h1
          cases h1
          exact (h.infix (List.take_prefix _ _).isInfix).append (joinPairs_of hB h h2)
      · cases h1; exact h
    obtain ⟨⟨nl2, b2⟩, h2, hx⟩ := bind_eq_ok.1 hx
    have g2 := closeLine_of hB g1 h2
    simp only at hx g2
    obtain ⟨l, _, hx⟩ := bind_eq_ok.1 hx
    cases hx
    refine Of.append ?_ hcls
    split
    · exact extendTabs_of g2 ha.1 ha.2
    · exact g2
  · cases hx; exact h.append hcls

omit hB in
/-- `extend_pretty_any` writes only such bytes. -/
def AnyInked (B : UInt8 → Prop) (any : PrettyFn) : Prop :=
  ∀ a tabs max depth buf i nl, ArgsOf B a → Of B buf → Inked B (any a tabs max depth buf i nl)

theorem prettyObjLoop_of {json : Bytes} (hj : Of B json) {any : PrettyFn} (hany : AnyInked B any) {opn cls : UInt8} (hc : B cls)
    {a : PArgs} (ha : ArgsOf B a) {tabs max : Int} {depth : Nat} :
    ∀ (fuel i : Nat) (nl : Int) (buf : Bytes) (pairs : List Pair) (n : Nat), Of B buf →
    Inked B (prettyObjLoop any json opn cls a tabs max depth fuel i nl buf pairs n)
  | 0, _, _, _, _, _, _ => by intro x h; simp [prettyObjLoop, outOfFuel] at h
  | fuel + 1, i, nl, buf, pairs, n, hp => by
    intro x h
    unfold prettyObjLoop at h
    split at h
    · obtain ⟨c, _, h⟩ := bind_eq_ok.1 h
      split at h
      · exact prettyObjLoop_of hj hany hc ha fuel _ _ _ _ _ hp x h
      split at h
      · exact prettyClose_of hB ha hc hp x h
      split at h
      · obtain ⟨⟨nl1, b1⟩, h1, h⟩ := bind_eq_ok.1 h
        have g1 := prettyLine_of hB (prettySep_of hB hp) h1
        simp only at h g1
        have g1' : Of B (prettyIndent a tabs b1) := by
          unfold prettyIndent
          split
          · exact extendTabs_of g1 ha.1 ha.2
          · exact g1
        obtain ⟨⟨b2, i2, nl2, k2⟩, h2, h⟩ := bind_eq_ok.1 h
        have g2 := prettyKey_of hB hj g1' h2
        simp only at h g2
        obtain ⟨⟨b3, i3, nl3, ok3⟩, h3, h⟩ := bind_eq_ok.1 h
        have g3 := hany _ _ _ _ _ _ _ ha g2 _ h3
        simp only at h g3
        split at h
        · cases h; exact g3
        split at h
        · simp [rpanic] at h
        · exact prettyObjLoop_of hj hany hc ha fuel _ _ _ _ _ g3 x h
      · exact prettyObjLoop_of hj hany hc ha fuel _ _ _ _ _ hp x h
    · cases h; exact hp

theorem prettyObj_of {json : Bytes} (hj : Of B json) {any : PrettyFn} (hany : AnyInked B any) :
    ∀ (k : Nat) {opn cls : UInt8} (_ : B opn) (_ : B cls) (a : PArgs) (tabs max : Int) (depth : Nat) (buf : Bytes) (i : Nat) (nl : Int),
    ArgsOf B a → Of B buf → Inked B (prettyObj any json k opn cls a tabs max depth buf i nl)
  | 0, _, _, _, _, _, _, _, _, _, _, _, _, _ => by intro x h; simp [prettyObj, outOfFuel] at h
  | k + 1, opn, cls, ho, hc, a, tabs, max, depth, buf, i, nl, ha, hb => by
    intro x h
    unfold prettyObj at h
    split at h
    · obtain ⟨r, h1, h⟩ := bind_eq_ok.1 h
      obtain ⟨f, h2, h⟩ := bind_eq_ok.1 h
      cases h
      exact hb.append (ugly_of (hj.infix (sliceFrom_infix h1)) h2)
    have hbody := prettyObjLoop_of hB hj hany (opn := opn) hc ha (tabs := tabs) (max := max) (depth := depth) (json.length + 1) (i + 1) nl
      (buf ++ [opn]) [] 0 (hb.append (.cons ho of_nil))
    simp only at h
    split at h
    · split at h
      · split at h
        · obtain ⟨⟨b1, i1, nl1, ok1⟩, h1, h⟩ := bind_eq_ok.1 h
          have := prettyObj_of hj hany k (hB (c! '[') (by decide)) (hB (c! ']') (by decide)) { a with pretty := false, indent := [] } _ _ _ _ _ _ ⟨ha.1, of_nil⟩ hb _ h1
          simp only at h
          split at h
          · cases h; exact this
          · exact hbody x h
        · exact hbody x h
      · split at h
        · cases h; exact hb
        · exact hbody x h
    · exact hbody x h

theorem prettyAnyLoop_of {json : Bytes} (hj : Of B json) {any : PrettyFn} (hany : AnyInked B any) {a : PArgs} (ha : ArgsOf B a)
    {tabs max : Int} {depth : Nat} {buf : Bytes} {nl : Int} (hb : Of B buf) :
    ∀ (n i : Nat), Inked B (prettyAnyLoop any json a tabs max depth buf nl n i)
  | 0, _ => by intro x h; simp [prettyAnyLoop, outOfFuel] at h
  | n + 1, i => by
    intro x h
    unfold prettyAnyLoop at h
    split at h
    · obtain ⟨c, _, h⟩ := bind_eq_ok.1 h
      split at h; · exact prettyAnyLoop_of hj hany ha hb n _ x h
      split at h; · exact prettyString_of hj hb x h
      split at h; · exact prettyNumber_of hj hb x h
      split at h; · exact prettyObj_of hB hj hany _ (hB _ (by decide)) (hB _ (by decide)) _ _ _ _ _ _ _ ha hb x h
      split at h; · exact prettyObj_of hB hj hany _ (hB _ (by decide)) (hB _ (by decide)) _ _ _ _ _ _ _ ha hb x h
      split at h; · cases h; exact hb.append (of_pretty_ink hB (by decide))
      split at h; · cases h; exact hb.append (of_pretty_ink hB (by decide))
      split at h; · cases h; exact hb.append (of_pretty_ink hB (by decide))
      exact prettyAnyLoop_of hj hany ha hb n _ x h
    · cases h; exact hb

theorem prettyAny_of {json : Bytes} (hj : Of B json) : ∀ d, AnyInked B (prettyAny json d)
  | 0 => fun _ _ _ _ _ _ _ _ _ => by intro x h; simp [prettyAny, outOfFuel] at h
  | d + 1 => fun _ _ _ _ _ _ _ ha hb => prettyAnyLoop_of hB hj (prettyAny_of hj d) ha hb _ _

theorem prettyOptions_of {json out : Bytes} {o : PrettyOptions} (hj : Of B json) (hp : Of B o.pfx) (hi : Of B o.indent)
    (h : prettyOptions json o = .ok out) : Of B out := by
  unfold prettyOptions at h
  obtain ⟨⟨b, i, nl, k⟩, h1, h⟩ := bind_eq_ok.1 h
  have hb : Of B (if o.pfx.length ≠ 0 then o.pfx else []) := by
    split
    · exact hp
    · exact of_nil
  have := prettyAny_of hB hj _ _ _ _ _ _ _ _ ⟨hp, hi⟩ hb _ h1
  cases h
  simp only at this ⊢
  split
  · exact this.append (of_pretty_ink hB (by decide))
  · exact this

end Pretty

variable (hB : ∀ b ∈ ink, B b)
include hB

theorem of_ink {s : Bytes} (h : ∀ b ∈ s, b ∈ ink) : Of B s := fun b hb => hB b (h b hb)

/-! ### Modifiers that visit elements -/

omit hB in
theorem pairUp_all {Q : Value → Prop} : ∀ {l : List Value}, (∀ v ∈ l, Q v) → ∀ p ∈ pairUp l, Q p.1 ∧ Q p.2
  | [], _, p, hp => by simp [pairUp] at hp
  | [_], _, p, hp => by simp [pairUp] at hp
  | a :: b :: r, h, p, hp => by
    unfold pairUp at hp
    rcases List.mem_cons.1 hp with rfl | hp
    · exact ⟨h _ (by simp), h _ (by simp)⟩
    · exact pairUp_all (fun v hv => h v (by simp [hv])) p hp

omit hB in
theorem runFold_inv {σ : Type} {f : σ → Value → Value → Res (σ × Bool)} {P : σ → Prop} :
    ∀ (l : List (Value × Value)) (st st' : σ), (∀ p ∈ l, ∀ st x, P st → f st p.1 p.2 = .ok x → P x.1) → P st → runFold f st l = .ok st' → P st'
  | [], st, st', _, hs, h => by simp [runFold] at h; rw [← h]; exact hs
  | (k, v) :: r, st, st', hf, hs, h => by
    unfold runFold at h
    obtain ⟨⟨s1, more⟩, h1, h2⟩ := bind_eq_ok.1 h
    have := hf (k, v) (by simp) _ _ hs h1
    simp only at h2
    split at h2
    · exact runFold_inv r _ _ (fun p hp => hf p (by simp [hp])) this h2
    · cases h2; exact this

omit hB in
/-- What `each` keeps, when the elements are pieces of the text. -/
theorem each_inv {σ : Type} {v : Value} {f : σ → Value → Value → Res (σ × Bool)} {P : σ → Prop} {st st' : σ}
    (hk : v.kind = .object ∨ v.kind = .array)
    (hf : ∀ k x, Piece v.json k → Piece v.json x → ∀ st y, P st → f st k x = .ok y → P y.1) (hs : P st) (h : v.each f st = .ok st') : P st' := by
  by_cases he : v.exists = true
  · rw [each_run he hk] at h
    have hp : ∀ e ∈ eachToks 0 false v.json, Piece v.json e := eachToks_piece 0 false v.json
    refine runFold_inv _ _ _ (fun p hm st x hst hx => ?_) hs h
    have : Piece v.json p.1 ∧ Piece v.json p.2 := by
      unfold eachPairs at hm
      split at hm
      · exact pairUp_all hp p hm
      · obtain ⟨e, h1, rfl⟩ := List.mem_map.1 hm
        exact ⟨piece_default _, hp e h1⟩
    exact hf p.1 p.2 this.1 this.2 st x hst hx
  · unfold Value.each at h
    rw [if_pos (by simp [he])] at h
    cases h; exact hs

omit hB in
theorem Piece.of {j : Bytes} {v : Value} (h : Piece j v) (hj : Of B j) : Of B v.json := by
  rw [h.json]; exact hj.infix h.2.1

theorem joinComma_of : ∀ {l : List Bytes}, (∀ s ∈ l, Of B s) → Of B (joinComma l)
  | [], _ => of_nil
  | [s], h => h s (by simp)
  | s :: t :: r, h => by
    unfold joinComma
    exact ((h s (by simp)).append (of_ink hB (by decide))).append (joinComma_of fun x hx => h x (by simp [hx]))

omit hB in
theorem dropBlank_suffix : ∀ s : Bytes, dropBlank s <:+ s
  | [] => List.suffix_refl _
  | c :: r => by
    unfold dropBlank
    split
    · exact (dropBlank_suffix r).trans (List.suffix_cons c r)
    · exact List.suffix_refl _

omit hB in
theorem unwrap_infix (s : Bytes) : unwrap s <:+: s := by
  have h : (dropBlank (dropBlank s).reverse).reverse <:+: s := by
    have h1 := dropBlank_suffix (dropBlank s).reverse
    have h2 : (dropBlank (dropBlank s).reverse).reverse <+: dropBlank s := by
      have := List.reverse_prefix.2 h1
      rwa [List.reverse_reverse] at this
    exact h2.isInfix.trans (dropBlank_suffix s).isInfix
  unfold unwrap
  simp only
  generalize (dropBlank (dropBlank s).reverse).reverse = t at h
  split
  · split
    · exact (sub_infix _ _ _).trans h
    · exact h
  · exact h

omit hB in
theorem parse_of {j : Bytes} {v : Value} (hj : Of B j) (h : parse j = .ok v) : Of B v.json ∧ Of B v.slice := by
  rw [parse_eq] at h
  cases h
  have h1 : Of B (pParse 0 j).json := hj.infix (pParse_infix 0 j)
  refine ⟨h1, ?_⟩
  rcases pParse_oneText j 0 with h2 | h2
  · rw [h2]; exact of_nil
  · have : (pParse 0 j).json = (pParse 0 j).slice := by
      unfold Value.json
      rw [h2]
      cases (pParse 0 j).slice <;> simp
    rw [← this]; exact h1

theorem modReverse_of {j out : Bytes} (hj : Of B j) (h : modReverse j = .ok out) : Of B out := by
  unfold modReverse at h
  obtain ⟨res, h1, h⟩ := bind_eq_ok.1 h
  obtain ⟨hr, hs⟩ := parse_of hj h1
  simp only at h
  split at h
  · rename_i hk
    obtain ⟨l, h2, h⟩ := bind_eq_ok.1 h
    cases h
    have : ∀ s ∈ l, Of B s := each_inv (P := fun l : List Bytes => ∀ s ∈ l, Of B s) (.inl hk) (by
      intro k x _ _ st y hst hy
      obtain ⟨_, _, hy⟩ := bind_eq_ok.1 hy
      obtain ⟨_, _, hy⟩ := bind_eq_ok.1 hy
      obtain ⟨s, h3, hy⟩ := bind_eq_ok.1 hy
      cases hy
      intro t ht
      rcases List.mem_append.1 ht with ht | ht
      · exact hst t ht
      · simp at ht; subst ht; exact hs.infix (slice_infix h3)) (by simp) h2
    exact ((of_ink hB (by decide)).append (joinComma_of hB (by simpa using this))).append (of_ink hB (by decide))
  · rename_i hk
    obtain ⟨l, h2, h⟩ := bind_eq_ok.1 h
    cases h
    have : ∀ s ∈ l, Of B s := each_inv (P := fun l : List Bytes => ∀ s ∈ l, Of B s) (.inr hk) (by
      intro k x _ _ st y hst hy
      obtain ⟨_, _, hy⟩ := bind_eq_ok.1 hy
      obtain ⟨s, h3, hy⟩ := bind_eq_ok.1 hy
      cases hy
      intro t ht
      rcases List.mem_append.1 ht with ht | ht
      · exact hst t ht
      · simp at ht; subst ht; exact hs.infix (slice_infix h3)) (by simp) h2
    exact ((of_ink hB (by decide)).append (joinComma_of hB (by simpa using this))).append (of_ink hB (by decide))
  · cases h; exact hs

theorem flattenN_of {arg : Bytes} : ∀ (n : Nat) {j out : Bytes}, Of B j → modFlattenN get n j arg = .ok out → Of B out
  | 0, _, _, _, h => by simp [modFlattenN, outOfFuel] at h
  | n + 1, j, out, hj, h => by
    unfold modFlattenN at h
    obtain ⟨res, h1, h⟩ := bind_eq_ok.1 h
    obtain ⟨hr, hs⟩ := parse_of hj h1
    split at h
    · cases h; exact hj
    · rename_i hk
      obtain ⟨d, _, h⟩ := bind_eq_ok.1 h
      obtain ⟨deep, _, h⟩ := bind_eq_ok.1 h
      obtain ⟨⟨o, m⟩, h2, h⟩ := bind_eq_ok.1 h
      cases h
      refine Of.append ?_ (of_ink hB (by decide))
      refine each_inv (P := fun st : Bytes × Nat => Of B st.1) (.inr (by simpa using hk)) ?_ (of_ink hB (by decide)) h2
      intro k x _ hx st y hst hy
      have hraw : ∀ base, Of B base → ∀ raw, Of B raw → (if raw.length > 0 then
          (.ok ((base ++ raw, st.2 + 1), true) : Res ((Bytes × Nat) × Bool)) else .ok (st, true)) = .ok y → Of B y.1.1 := by
        intro base hb raw hr hy
        split at hy
        · cases hy; exact hb.append hr
        · cases hy; exact hst
      have hgo : ∀ base, Of B base → (if x.kind = .array then
            if deep = true then modFlattenN get n x.json arg >>= fun inner =>
              if (unwrap inner).length > 0 then (.ok ((base ++ unwrap inner, st.2 + 1), true) : Res ((Bytes × Nat) × Bool)) else .ok (st, true)
            else if (unwrap x.json).length > 0 then .ok ((base ++ unwrap x.json, st.2 + 1), true) else .ok (st, true)
          else if x.slice.length > 0 then .ok ((base ++ x.slice, st.2 + 1), true) else .ok (st, true)) = .ok y → Of B y.1.1 := by
        intro base hb hy
        split at hy
        · split at hy
          · obtain ⟨inner, h4, hy⟩ := bind_eq_ok.1 hy
            exact hraw base hb _ ((flattenN_of n (hx.of hr) h4).infix (unwrap_infix _)) hy
          · exact hraw base hb _ ((hx.of hr).infix (unwrap_infix _)) hy
        · exact hraw base hb _ (hr.infix hx.2.1) hy
      by_cases hpos : st.2 > 0
      · simp only [ok_bind, if_pos hpos] at hy
        exact hgo _ (hst.append (of_ink hB (by decide))) hy
      · simp only [ok_bind, if_neg hpos] at hy
        exact hgo _ hst hy

omit hB in
theorem mapInsert_all {Q : Bytes → Prop} {k v : Bytes} (hv : Q v) : ∀ {l : List (Bytes × Bytes)}, (∀ p ∈ l, Q p.2) → ∀ p ∈ mapInsert k v l, Q p.2
  | [], _, p, hp => by simp [mapInsert] at hp; subst hp; exact hv
  | (k', v') :: r, h, p, hp => by
    unfold mapInsert at hp
    split at hp
    · rcases List.mem_cons.1 hp with rfl | hp
      · exact hv
      · exact h p (by simp [hp])
    · rcases List.mem_cons.1 hp with rfl | hp
      · exact h _ (by simp)
      · exact mapInsert_all hv (fun q hq => h q (by simp [hq])) p hp

omit hB in
theorem mapGet_all {Q : Bytes → Prop} {k v : Bytes} : ∀ {l : List (Bytes × Bytes)}, (∀ p ∈ l, Q p.2) → mapGet k l = some v → Q v
  | [], _, h => by simp [mapGet] at h
  | (k', v') :: r, hq, h => by
    unfold mapGet at h
    split at h
    · cases h; exact hq (k', v) (by simp)
    · exact mapGet_all (fun q hq' => hq q (by simp [hq'])) h

theorem joinMembers_of {kv : List (Bytes × Bytes)} (hkv : ∀ p ∈ kv, Of B p.2) : ∀ {ks : List (Bytes × Bytes)} {l : List Bytes},
    (∀ p ∈ ks, Of B p.1) → joinMembers kv ks = .ok l → ∀ s ∈ l, Of B s
  | [], l, _, h, s, hs => by cases h; simp at hs
  | (raw, k) :: r, l, hk, h, s, hs => by
    unfold joinMembers at h
    split at h
    · simp [rpanic] at h
    · rename_i v hv
      obtain ⟨rest, h1, h⟩ := bind_eq_ok.1 h
      cases h
      rcases List.mem_cons.1 hs with rfl | hs
      · exact ((hk (raw, k) (by simp)).append (of_ink hB (s := [c! ':']) (by decide))).append (mapGet_all hkv hv)
      · exact joinMembers_of hkv (fun p hp => hk p (by simp [hp])) h1 s hs

theorem modJoin_of {arg j out : Bytes} (hj : Of B j) (h : modJoin get j arg = .ok out) : Of B out := by
  unfold modJoin at h
  obtain ⟨res, h1, h⟩ := bind_eq_ok.1 h
  obtain ⟨hr, hs⟩ := parse_of hj h1
  split at h
  · cases h; exact hj
  · rename_i hk
    have hk : res.kind = .array := by simpa using hk
    obtain ⟨p, _, h⟩ := bind_eq_ok.1 h
    obtain ⟨pr, _, h⟩ := bind_eq_ok.1 h
    split at h
    · obtain ⟨⟨o, m⟩, h2, h⟩ := bind_eq_ok.1 h
      cases h
      refine Of.append ?_ (of_ink hB (by decide))
      refine each_inv (P := fun st : Bytes × Nat => Of B st.1) (.inr hk) ?_ (of_ink hB (by decide)) h2
      intro k x _ hx st y hst hy
      split at hy
      · cases hy; exact hst
      · cases hy
        refine Of.append ?_ (Of.infix ?_ (unwrap_infix _))
        · split
          · exact hst.append (of_ink hB (by decide))
          · exact hst
        · exact hr.infix hx.2.1
    · obtain ⟨⟨keys, kv⟩, h2, h⟩ := bind_eq_ok.1 h
      obtain ⟨l, h3, h⟩ := bind_eq_ok.1 h
      cases h
      have := each_inv (P := fun st : List (Bytes × Bytes) × List (Bytes × Bytes) => (∀ p ∈ st.1, Of B p.1) ∧ ∀ p ∈ st.2, Of B p.2)
        (.inr hk) (by
          intro k x _ hx st y hst hy
          split at hy
          · cases hy; exact hst
          · rename_i hxk
            obtain ⟨st2, h4, hy⟩ := bind_eq_ok.1 hy
            cases hy
            refine each_inv (P := fun st : List (Bytes × Bytes) × List (Bytes × Bytes) => (∀ p ∈ st.1, Of B p.1) ∧ ∀ p ∈ st.2, Of B p.2)
              (.inl (by simpa using hxk)) ?_ hst h4
            intro k' x' hk' hx' st y hst hy
            obtain ⟨s, _, hy⟩ := bind_eq_ok.1 hy
            cases hy
            refine ⟨?_, mapInsert_all (Q := Of B) (hx'.of (hx.of hr)) hst.2⟩
            simp only
            split
            · intro p hp
              rcases List.mem_append.1 hp with hp | hp
              · exact hst.1 p hp
              · simp at hp; subst hp; exact hk'.of (hx.of hr)
            · exact hst.1) ⟨by simp, by simp⟩ h2
      exact ((of_ink hB (by decide)).append (joinComma_of hB (joinMembers_of hB this.2 this.1 h3))).append (of_ink hB (by decide))

/-! ### `@pretty` with options -/

/-- Reading the text of a string literal gives only such bytes, if it does not contain `K`. -/
def ReadsOf (B : UInt8 → Prop) (K : Bytes) : Prop := ∀ t, Of B t → ¬ K <:+: t → Of B (unesc t)

theorem option_of {K arg name s : Bytes} {v : Value} (hK : ReadsOf B K) (hn : Selector name) (ha : Of B arg) (hk : ¬ K <:+: arg)
    (hv : get arg name = .ok v) (hs : v.str = .ok s) : Of B s := by
  have hp := get_piece (ks := [name]) (Nat.le_refl _) (fun k h => by simp at h; subst h; exact Selector.ord hn) (by simp) (by simpa [dotPath] using hv)
  have hj := ha.infix hp.1
  unfold Value.str at hs
  split at hs
  · cases hs; exact of_ink hB (by decide)
  · cases hs; exact of_ink hB (by decide)
  · cases hs; exact hj
  · cases hs; exact hj
  · cases hs; exact hj
  · split at hs
    · cases hs
      rcases (get_prov hv).uesc with e | e
      · rw [e]; exact of_nil
      · rw [e]
        have hk' : ¬ K <:+: v.json := fun h => hk (h.trans hp.1)
        generalize v.json = j at hj hk'
        unfold unescQ
        split
        · rename_i a b r
          split
          · have hi : (b :: r).dropLast <:+: a :: b :: r := (List.dropLast_prefix _).isInfix.trans (List.suffix_cons _ _).isInfix
            exact hK _ (hj.infix hi) fun h => hk' (h.trans hi)
          · exact of_nil
        · exact of_nil
    · unfold stripQuotes at hs
      split at hs
      · simp [rpanic] at hs
      · exact hj.infix (slice_infix hs)
  · cases hs; exact of_nil

theorem modPretty_of {K j arg out : Bytes} (hK : ReadsOf B K) (hj : Of B j) (ha : Of B arg) (hk : ¬ K <:+: arg)
    (h : modPretty get j arg = .ok out) : Of B out := by
  have hd : Of B PrettyOptions.default.pfx ∧ Of B PrettyOptions.default.indent := ⟨of_nil, of_ink hB (by decide)⟩
  unfold modPretty at h
  split at h
  · obtain ⟨vi, g1, h⟩ := bind_eq_ok.1 h
    obtain ⟨vp, g2, h⟩ := bind_eq_ok.1 h
    obtain ⟨vs, _, h⟩ := bind_eq_ok.1 h
    obtain ⟨vw, _, h⟩ := bind_eq_ok.1 h
    obtain ⟨o1, e1, h⟩ := bind_eq_ok.1 h
    obtain ⟨o2, e2, h⟩ := bind_eq_ok.1 h
    obtain ⟨o3, e3, h⟩ := bind_eq_ok.1 h
    obtain ⟨o4, e4, h⟩ := bind_eq_ok.1 h
    have p1 : Of B o1.pfx ∧ Of B o1.indent := by
      unfold optIndent at e1
      split at e1
      · obtain ⟨s, hs, e⟩ := bind_eq_ok.1 e1
        cases e
        exact ⟨hd.1, option_of hB hK (PlainKey.selector (by decide) (by decide)) ha hk g1 hs⟩
      · cases e1; exact hd
    have p2 : Of B o2.pfx ∧ Of B o2.indent := by
      unfold optPrefix at e2
      split at e2
      · obtain ⟨s, hs, e⟩ := bind_eq_ok.1 e2
        cases e
        exact ⟨option_of hB hK (PlainKey.selector (by decide) (by decide)) ha hk g2 hs, p1.2⟩
      · cases e2; exact p1
    have p3 : Of B o3.pfx ∧ Of B o3.indent := by
      unfold optSortKeys at e3
      split at e3
      · obtain ⟨s, _, e⟩ := bind_eq_ok.1 e3; cases e; exact p2
      · cases e3; exact p2
    obtain ⟨w1, w2, _⟩ := optWidth_fields e4
    rw [← w1, ← w2] at p3
    exact prettyOptions_of (fun b hb => hB b ((by decide : ∀ x ∈ prettyInk, x ∈ ink) b hb)) hj p3.1 p3.2 h
  · unfold pretty at h
    exact prettyOptions_of (fun b hb => hB b ((by decide : ∀ x ∈ prettyInk, x ∈ ink) b hb)) hj hd.1 hd.2 h

omit hB in
theorem escapeByte_ink (c : UInt8) : ∀ b ∈ escapeByte c, b = c ∨ b ∈ ink := by
  have : ∀ n : Fin 256, ∀ b ∈ escapeByte (UInt8.ofNat n.val), b = UInt8.ofNat n.val ∨ b ∈ ink := by decide +kernel
  have h := this ⟨c.toNat, c.toNat_lt⟩
  simpa using h

theorem jsonString_of {s : Bytes} (h : Of B s) : Of B (jsonString s) := by
  unfold jsonString
  refine ((of_ink hB (by decide)).append ?_).append (of_ink hB (by decide))
  intro b hb
  obtain ⟨c, hc, hb⟩ := List.mem_flatMap.1 hb
  rcases escapeByte_ink c b hb with rfl | hb
  · exact h b hc
  · exact hB b hb

theorem commaSep_of : ∀ {l : List Bytes}, (∀ s ∈ l, Of B s) → Of B (commaSep l)
  | l, h => by rw [← joinComma_eq]; exact joinComma_of hB h

/-- All results are made of such bytes. -/
theorem closed_ink {K : Bytes} (hK : ReadsOf B K) (hK0 : K ≠ []) (hKu : ¬ PrettyWith K b!"_") : Closed (Of B) (fun p => Of B p ∧ ¬ PrettyWith K p) where
  nil := of_nil
  part h hi := h.infix hi
  count n := by
    rw [natDec_eq]
    intro c hc
    have := (numeral_spec n).2.1 c hc
    have hd : ∀ n : Fin 256, IsDigit (UInt8.ofNat n.val) → UInt8.ofNat n.val ∈ ink := by decide +kernel
    exact hB c (by simpa using hd ⟨c.toNat, c.toNat_lt⟩ (by simpa using this))
  array h := .cons (hB (c! '[') (by decide)) ((commaSep_of hB h).append (of_ink hB (by decide)))
  object {ms} h := by
    refine .cons (hB (c! '{') (by decide)) (Of.append (commaSep_of hB ?_) (of_ink hB (by decide)))
    intro s hs
    obtain ⟨m, h1, rfl⟩ := List.mem_map.1 hs
    obtain ⟨m, h2, rfl⟩ := List.mem_map.1 h1
    exact (jsonString_of hB (h m h2).1.1).append (.cons (hB (c! ':') (by decide)) (h m h2).2)
  cut h hc := ⟨h.1.infix hc.infix, fun hp => h.2 (InOrder.mono hc.infix hp)⟩
  under := ⟨of_ink hB (by decide), hKu⟩
  mod {path j out} h hj hm ho := by
    have ha : Of B (modArg (pNext path)) ∧ (modName (pNext path) = b!"pretty" → K ≠ [] → ¬ K <:+: modArg (pNext path)) := by
      rcases modArg_infix (pNext_ok path) hm with h1 | h1
      · rw [h1]
        exact ⟨of_nil, fun _ h0 h2 => h0 (List.infix_nil.1 h2)⟩
      · have h2 := h1.trans (pNext_ok path).comp.isInfix
        refine ⟨(h.1.infix h2).tail.right.tail, fun hn _ ⟨x, y, hxy⟩ => ?_⟩
        rw [hn] at h2
        refine h.2 (InOrder.mono h2 ⟨[], b!"@pretty:", _, by simp, rfl, x, K, y, by simp, ?_, trivial⟩)
        show modArg (pNext path) = _
        rw [← hxy, List.append_assoc]
    unfold modApply at ho
    split at ho
    · cases ho; exact hj
    split at ho
    · exact modReverse_of hB hj ho
    split at ho
    · exact ugly_of hj ho
    split at ho
    · rename_i hn
      exact modPretty_of hB hK hj ha.1 (ha.2 hn hK0) ho
    split at ho
    · unfold modValid at ho
      obtain ⟨b, _, ho⟩ := bind_eq_ok.1 ho
      split at ho
      · cases ho; exact hj
      · cases ho; exact of_nil
    split at ho
    · exact flattenN_of hB _ hj ho
    split at ho
    · exact modJoin_of hB hj ho
    · cases ho; exact of_nil

end
end Gjson
