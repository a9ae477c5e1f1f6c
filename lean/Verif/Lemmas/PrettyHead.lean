import Verif.Lemmas.Usable
import Verif.Lemmas.PrettyOk
import Verif.Lemmas.Miss
/-
How the output of `pretty` begins: with the prefix, and then with the first token
of the text.
-/
namespace Gjson

/-! ### The printer only appends -/

/-- What was printed before stays. -/
def Grows (pre : Bytes) (r : PRes) : Prop := ∀ x, r = .ok x → pre <+: x.1

theorem extendTabs_pre (buf pfx indent : Bytes) (tabs : Int) : buf <+: extendTabs buf pfx indent tabs := by
  unfold extendTabs
  split
  · rw [List.append_assoc]; exact List.prefix_append _ _
  · exact List.prefix_append _ _

theorem prettySep_pre (opn : UInt8) (a : PArgs) (buf : Bytes) (n : Nat) : buf <+: prettySep opn a buf n := by
  unfold prettySep
  split
  · split
    · rw [List.append_assoc]; exact List.prefix_append _ _
    · exact List.prefix_append _ _
  · exact List.prefix_rfl

theorem prettyIndent_pre (a : PArgs) (tabs : Int) (buf : Bytes) : buf <+: prettyIndent a tabs buf := by
  unfold prettyIndent
  split
  · exact extendTabs_pre _ _ _ _
  · exact List.prefix_rfl

theorem prettyString_grows {buf json : Bytes} {i : Nat} {nl : Int} : Grows buf (prettyString buf json i nl) := by
  intro x h
  unfold prettyString at h
  obtain ⟨e, _, h⟩ := bind_eq_ok.1 h
  obtain ⟨v, _, h⟩ := bind_eq_ok.1 h
  cases h; exact List.prefix_append _ _

theorem prettyNumber_grows {buf json : Bytes} {i : Nat} {nl : Int} : Grows buf (prettyNumber buf json i nl) := by
  intro x h
  unfold prettyNumber at h
  obtain ⟨e, _, h⟩ := bind_eq_ok.1 h
  obtain ⟨v, _, h⟩ := bind_eq_ok.1 h
  cases h; exact List.prefix_append _ _

theorem prettyKey_grows {json : Bytes} {opn : UInt8} {a : PArgs} {buf : Bytes} {i : Nat} {nl : Int}
    {x : Bytes × Nat × Int × Nat} (h : prettyKey json opn a buf i nl = .ok x) : buf <+: x.1 := by
  unfold prettyKey at h
  split at h
  · obtain ⟨⟨b, j, l, k⟩, h1, h2⟩ := bind_eq_ok.1 h
    have := prettyString_grows _ h1
    cases h2
    simp only at this ⊢
    split
    · exact this.trans (by rw [List.append_assoc]; exact List.prefix_append _ _)
    · exact this.trans (List.prefix_append _ _)
  · cases h; exact List.prefix_rfl

theorem lastByte_of {buf : Bytes} {l : UInt8} (h : lastByte buf = .ok l) : ∃ b, buf = b ++ [l] := by
  unfold lastByte at h
  split at h
  · simp [rpanic] at h
  · rename_i h0
    have hne : buf ≠ [] := by intro hb; rw [hb] at h0; simp at h0
    obtain ⟨b, c, rfl⟩ := (List.eq_nil_or_concat buf).resolve_left hne
    rw [List.concat_eq_append] at h ⊢
    unfold idx at h
    simp at h
    exact ⟨b, by rw [h]⟩

theorem prettyLine_pre {a : PArgs} {nl : Int} {pre buf : Bytes} {o : UInt8} (ho : o ≠ c! ' ') (hp : pre ++ [o] <+: buf)
    {x : Int × Bytes} (h : prettyLine a nl buf = .ok x) : pre ++ [o] <+: x.2 := by
  unfold prettyLine at h
  split at h
  · obtain ⟨l, h1, h2⟩ := bind_eq_ok.1 h
    cases h2
    simp only
    split
    · rename_i hl
      obtain ⟨b, rfl⟩ := lastByte_of h1
      subst hl
      rw [List.length_append, List.length_singleton, Nat.add_sub_cancel, List.take_left]
      refine List.IsPrefix.trans ?_ (List.prefix_append _ _)
      rcases List.prefix_concat_iff.1 hp with h3 | h3
      · exact absurd (List.append_inj_right' h3 rfl) (by simpa using ho)
      · exact h3
    · exact hp.trans (List.prefix_append _ _)
  · cases h; exact hp

theorem closeLine_pre {nl : Int} {buf : Bytes} {n : Nat} {x : Int × Bytes} (h : closeLine nl buf n = .ok x) : buf <+: x.2 := by
  unfold closeLine at h
  split at h
  · obtain ⟨l, _, h2⟩ := bind_eq_ok.1 h
    cases h2
    simp only
    split
    · exact List.prefix_append _ _
    · exact List.prefix_rfl
  · cases h; exact List.prefix_rfl

theorem sortPairs_pre {json pre buf b : Bytes} {pairs : List Pair} (hp : pre <+: buf) (hv : ∀ p ∈ pairs, pre.length ≤ p.vstart)
    (h : sortPairs json buf pairs = .ok b) : pre <+: b := by
  unfold sortPairs at h
  cases pairs with
  | nil => cases h; exact hp
  | cons p0 r =>
    simp only at h
    obtain ⟨s, _, h⟩ := bind_eq_ok.1 h
    obtain ⟨nb, _, h⟩ := bind_eq_ok.1 h
    cases h
    refine List.IsPrefix.trans ?_ (List.prefix_append _ _)
    rw [List.prefix_take_iff]
    exact ⟨hp, hv p0 (by simp)⟩

theorem prettyClose_grows {json pre buf : Bytes} {opn cls : UInt8} {a : PArgs} {tabs : Int} {i : Nat} {nl : Int}
    {pairs : List Pair} {n : Nat} (hp : pre <+: buf) (hv : ∀ p ∈ pairs, pre.length ≤ p.vstart) :
    Grows pre (prettyClose json opn cls a tabs i nl buf pairs n) := by
  intro x h
  unfold prettyClose at h
  split at h
  · obtain ⟨b1, h1, h⟩ := bind_eq_ok.1 h
    have g1 : pre <+: b1 := by
      unfold closeSort at h1
      split at h1
      · exact sortPairs_pre hp hv h1
      · cases h1; exact hp
    obtain ⟨⟨nl2, b2⟩, h2, h⟩ := bind_eq_ok.1 h
    have g2 := g1.trans (closeLine_pre h2)
    simp only at h g2
    obtain ⟨l, _, h⟩ := bind_eq_ok.1 h
    cases h
    refine List.IsPrefix.trans ?_ (List.prefix_append _ _)
    split
    · exact g2.trans (extendTabs_pre _ _ _ _)
    · exact g2
  · cases h; exact hp.trans (List.prefix_append _ _)

/-- `extend_pretty_any` only appends. -/
def AnyGrows (any : PrettyFn) : Prop := ∀ a tabs max depth buf i nl, Grows buf (any a tabs max depth buf i nl)

theorem prettyObjLoop_grows {json : Bytes} {any : PrettyFn} (hany : AnyGrows any) {opn cls : UInt8} (ho : opn ≠ c! ' ')
    {a : PArgs} {tabs max : Int} {depth : Nat} {pre : Bytes} :
    ∀ (fuel i : Nat) (nl : Int) (buf : Bytes) (pairs : List Pair) (n : Nat), pre ++ [opn] <+: buf →
    (∀ p ∈ pairs, (pre ++ [opn]).length ≤ p.vstart) →
    Grows (pre ++ [opn]) (prettyObjLoop any json opn cls a tabs max depth fuel i nl buf pairs n)
  | 0, _, _, _, _, _, _, _ => by intro x h; simp [prettyObjLoop, outOfFuel] at h
  | fuel + 1, i, nl, buf, pairs, n, hp, hv => by
    intro x h
    unfold prettyObjLoop at h
    split at h
    · obtain ⟨c, _, h⟩ := bind_eq_ok.1 h
      split at h
      · exact prettyObjLoop_grows hany ho fuel _ _ _ _ _ hp hv x h
      split at h
      · exact prettyClose_grows hp hv x h
      split at h
      · obtain ⟨⟨nl1, b1⟩, h1, h⟩ := bind_eq_ok.1 h
        have g1 := prettyLine_pre ho (hp.trans (prettySep_pre opn a buf n)) h1
        simp only at h g1
        obtain ⟨⟨b2, i2, nl2, k2⟩, h2, h⟩ := bind_eq_ok.1 h
        have g2 := (g1.trans (prettyIndent_pre a tabs b1)).trans (prettyKey_grows h2)
        simp only at h g2
        obtain ⟨⟨b3, i3, nl3, ok3⟩, h3, h⟩ := bind_eq_ok.1 h
        have g3 := g2.trans (hany _ _ _ _ _ _ _ _ h3)
        simp only at h g3
        split at h
        · cases h; exact g3
        split at h
        · simp [rpanic] at h
        · refine prettyObjLoop_grows hany ho fuel _ _ _ _ _ g3 ?_ x h
          intro p hp
          unfold prettyPairs at hp
          split at hp
          · rcases List.mem_append.1 hp with hp | hp
            · exact hv p hp
            · simp at hp; subst hp; exact g1.length_le
          · exact hv p hp
      · exact prettyObjLoop_grows hany ho fuel _ _ _ _ _ hp hv x h
    · cases h; exact hp

/-- An array or object is printed behind its bracket, unless it is too deep. -/
theorem prettyObj_opens {json : Bytes} {any : PrettyFn} (hany : AnyGrows any) {opn cls : UInt8} (ho : opn ≠ c! ' ')
    {max : Int} {depth : Nat} (hd : depth ≠ MAX_DEPTH) (hm : opn = c! '[' ∨ max = -1) :
    ∀ (k : Nat) (a : PArgs) (tabs : Int) (buf : Bytes) (i : Nat) (nl : Int),
    Grows (buf ++ [opn]) (prettyObj any json k opn cls a tabs max depth buf i nl) := by
  intro k
  induction k generalizing max opn cls with
  | zero => intro a tabs buf i nl x h; simp [prettyObj, outOfFuel] at h
  | succ k ih =>
    intro a tabs buf i nl x h
    unfold prettyObj at h
    rw [if_neg hd] at h
    have hb := prettyObjLoop_grows (json := json) hany (opn := opn) (cls := cls) ho (a := a) (tabs := tabs) (max := max)
      (depth := depth) (pre := buf) (json.length + 1) (i + 1) nl (buf ++ [opn]) [] 0 List.prefix_rfl (by simp)
    simp only at h
    split at h
    · split at h
      · rename_i hc
        split at h
        · obtain ⟨⟨b1, i1, nl1, ok1⟩, h1, h⟩ := bind_eq_ok.1 h
          have := ih (opn := c! '[') (cls := c! ']') (by decide) (.inl rfl) _ _ _ _ _ _ h1
          simp only at h
          split at h
          · cases h; rw [hc.2.1]; exact this
          · exact hb x h
        · exact hb x h
      · split at h
        · rename_i hc
          rcases hm with h1 | h1
          · rw [h1] at hc; exact absurd hc.2 (by decide)
          · exact absurd h1 hc.1
        · exact hb x h
    · exact hb x h

theorem prettyObj_grows {json : Bytes} {any : PrettyFn} (hany : AnyGrows any) {opn cls : UInt8} (ho : opn ≠ c! ' ')
    (k : Nat) (a : PArgs) (tabs max : Int) (depth : Nat) (buf : Bytes) (i : Nat) (nl : Int) :
    Grows buf (prettyObj any json k opn cls a tabs max depth buf i nl) := by
  intro x h
  by_cases hd : depth = MAX_DEPTH
  · cases k with
    | zero => simp [prettyObj, outOfFuel] at h
    | succ k =>
      unfold prettyObj at h
      rw [if_pos hd] at h
      obtain ⟨r, _, h⟩ := bind_eq_ok.1 h
      obtain ⟨f, _, h⟩ := bind_eq_ok.1 h
      cases h; exact List.prefix_append _ _
  · by_cases hm : opn = c! '[' ∨ max = -1
    · exact (List.prefix_append _ _).trans (prettyObj_opens hany ho hd hm k a tabs buf i nl x h)
    · cases k with
      | zero => simp [prettyObj, outOfFuel] at h
      | succ k =>
        unfold prettyObj at h
        rw [if_neg hd] at h
        have hb := prettyObjLoop_grows (json := json) hany (opn := opn) (cls := cls) ho (a := a) (tabs := tabs) (max := max)
          (depth := depth) (pre := buf) (json.length + 1) (i + 1) nl (buf ++ [opn]) [] 0 List.prefix_rfl (by simp)
        simp only at h
        split at h
        · split at h
          · rename_i hc; exact absurd (.inl hc.2.1) hm
          · split at h
            · cases h; exact List.prefix_rfl
            · exact (List.prefix_append _ _).trans (hb x h)
        · exact (List.prefix_append _ _).trans (hb x h)

theorem prettyAnyLoop_grows {json : Bytes} {any : PrettyFn} (hany : AnyGrows any) {a : PArgs} {tabs max : Int} {depth : Nat}
    {buf : Bytes} {nl : Int} : ∀ (n i : Nat), Grows buf (prettyAnyLoop any json a tabs max depth buf nl n i)
  | 0, _ => by intro x h; simp [prettyAnyLoop, outOfFuel] at h
  | n + 1, i => by
    intro x h
    unfold prettyAnyLoop at h
    split at h
    · obtain ⟨c, _, h⟩ := bind_eq_ok.1 h
      split at h; · exact prettyAnyLoop_grows hany n _ x h
      split at h; · exact prettyString_grows x h
      split at h; · exact prettyNumber_grows x h
      split at h; · exact prettyObj_grows hany (by decide) _ _ _ _ _ _ _ _ x h
      split at h; · exact prettyObj_grows hany (by decide) _ _ _ _ _ _ _ _ x h
      split at h; · cases h; exact List.prefix_append _ _
      split at h; · cases h; exact List.prefix_append _ _
      split at h; · cases h; exact List.prefix_append _ _
      exact prettyAnyLoop_grows hany n _ x h
    · cases h; exact List.prefix_rfl

theorem prettyAny_grows (json : Bytes) : ∀ d, AnyGrows (prettyAny json d)
  | 0 => fun _ _ _ _ _ _ _ => by intro x h; simp [prettyAny, outOfFuel] at h
  | d + 1 => fun a tabs max depth buf i nl => prettyAnyLoop_grows (prettyAny_grows json d) _ _

/-! ### The first token -/

theorem nu_pre {c : UInt8} {s : Bytes} (h1 : ¬ c ≤ c! ' ') (h2 : c ≠ c! '"') (h : [c] <+: s) : nu s := by
  obtain ⟨t, rfl⟩ := h
  exact nu_other h1 h2

theorem prettyAnyLoop_head {json : Bytes} {any : PrettyFn} (hany : AnyGrows any) {a : PArgs} {tabs : Int} {nl : Int} :
    ∀ (s : Bytes) (n i : Nat), At json i s → pk s → ∀ x, prettyAnyLoop any json a tabs (-1) 0 [] nl n i = .ok x →
      ∀ t, nu t → nu (x.1 ++ t)
  | s, 0, _, _, _, x, h, _, _ => by simp [prettyAnyLoop, outOfFuel] at h
  | [], n + 1, i, hA, _, x, h, t, ht => by
    unfold prettyAnyLoop at h
    rw [if_neg (by have := hA.len; simp at this; omega)] at h
    cases h; exact ht
  | c :: r, n + 1, i, hA, hp, x, h, t, ht => by
    have hgo : ∀ {c' : UInt8}, ¬ c' ≤ c! ' ' → c' ≠ c! '"' → [] ++ [c'] <+: x.1 → nu (x.1 ++ t) := by
      intro c' h1 h2 h3
      exact nu_pre h1 h2 (h3.trans (List.prefix_append _ _))
    unfold prettyAnyLoop at h
    rw [if_pos (by have := hA.len; simp at this; omega), hA.idx, ok_bind] at h
    unfold pk at hp
    split at h
    · rename_i hc
      rw [if_neg (by rintro rfl; exact absurd hc (by decide)), if_neg (by grind)] at hp
      exact prettyAnyLoop_head hany r n (i + 1) hA.cons hp x h t ht
    rename_i hws
    split at h
    · rename_i hc
      subst hc
      rw [if_pos rfl] at hp
      rw [prettyString_eq _ _ hA] at h
      cases h
      cases hq : qStr r with
      | none => exact absurd hq hp
      | some y =>
        obtain ⟨b, f, q⟩ := y
        rw [qStr_sEnd hq]
        simp only [List.nil_append, List.cons_append]
        unfold nu
        rw [if_neg hws, qStr_ext hq]
        simp
    rename_i hq
    split at h
    · rename_i hc
      unfold prettyNumber at h
      obtain ⟨e, h1, h⟩ := bind_eq_ok.1 h
      obtain ⟨v, h2, h⟩ := bind_eq_ok.1 h
      cases h
      obtain ⟨e', h3, h4, h5⟩ := prettyNumberEnd_ok (json := json) (json.length + 1) (i + 1)
        (by have := hA.len; simp at this; omega) (by omega)
      rw [h3] at h1; cases h1
      have : ∃ w, v = c :: w := by
        rw [slice_ok (by omega) h5] at h2
        cases h2
        unfold sub
        have hd : json.drop i = c :: r := hA.2
        have he : ∃ m, e - i = m + 1 := ⟨e - i - 1, by omega⟩
        obtain ⟨m, hm⟩ := he
        rw [hd, hm]
        exact ⟨_, rfl⟩
      obtain ⟨w, rfl⟩ := this
      exact hgo hws hq ⟨w, rfl⟩
    split at h
    · exact hgo (by decide) (by decide) (prettyObj_opens hany (by decide) (by decide) (.inr rfl) _ _ _ _ _ _ _ h)
    split at h
    · exact hgo (by decide) (by decide) (prettyObj_opens hany (by decide) (by decide) (.inr rfl) _ _ _ _ _ _ _ h)
    split at h
    · cases h; exact hgo (c' := c! 't') (by decide) (by decide) ⟨_, rfl⟩
    split at h
    · cases h; exact hgo (c' := c! 'f') (by decide) (by decide) ⟨_, rfl⟩
    split at h
    · cases h; exact hgo (c' := c! 'n') (by decide) (by decide) ⟨_, rfl⟩
    · rw [if_neg hq, if_neg (by grind)] at hp
      exact prettyAnyLoop_head hany r n (i + 1) hA.cons hp x h t ht

/-- Without a prefix, `pretty` makes no unclosed string of a text whose first token
is not one. -/
theorem prettyOptions_nu {json b : Bytes} {o : PrettyOptions} (ho : o.pfx = []) (hj : pk json)
    (h : prettyOptions json o = .ok b) : nu b := by
  unfold prettyOptions at h
  obtain ⟨⟨buf, i, nl, ok⟩, h1, h2⟩ := bind_eq_ok.1 h
  cases h2
  rw [ho] at h1
  unfold prettyAny at h1
  have := prettyAnyLoop_head (prettyAny_grows json _) json _ 0 (At.zero json) hj _ h1
  split
  · exact this _ (by unfold nu; rw [if_pos (by decide)]; trivial)
  · simpa using this [] trivial

/-! ### The option `prefix` -/

theorem get_absent {name arg : Bytes} (h : name ∈ optionNames) (hb : c! '\\' ∉ arg) (hk : ¬ quoted name <:+: arg) :
    get arg name = .ok Value.default := by
  have key : linesPrefix name = (name, false) ∧ pathNext name = .ok ⟨name, false, false, 0, 0, []⟩ ∧
      name.head? ≠ some c! '@' ∧ name.head? ≠ some c! '#' ∧ name.head? ≠ some c! '{' ∧ name.head? ≠ some c! '[' ∧
      parseI64 name = none ∧ name ≠ [] := by
    clear hk; revert name; decide
  obtain ⟨h1, h2, h3, h4, h5, h6, h7, h8⟩ := key
  have h9 : pNext name = ⟨name, false, false, 0, 0, []⟩ := by unfold pNext; rw [h2]
  have hm : (⟨name, false, false, 0, 0, []⟩ : Path).isModifier = false := by
    unfold Path.isModifier; cases name <;> simp_all
  have hmp : (⟨name, false, false, 0, 0, []⟩ : Path).isMultipath = false := by
    unfold Path.isMultipath; cases name <;> simp_all
  have go : ∀ (s : Bytes), c! '\\' ∉ s → ¬ quoted name <:+: s → ∀ L,
      gStart get L ⟨name, false, false, 0, 0, []⟩ s = .ok (Value.default, ⟨name, false, false, 0, 0, []⟩) := by
    intro s
    induction s with
    | nil => intro _ _ L; rfl
    | cons c r ih =>
      intro hb hk L
      have hb' : c! '\\' ∉ r := fun h => hb (List.mem_cons_of_mem _ h)
      have hk' : ¬ quoted name <:+: r := fun h => hk (h.trans (List.suffix_cons c r).isInfix)
      unfold gStart
      split
      · exact ih hb' hk' L
      split
      · rename_i hc
        rw [gObj.eq_def]
        simp only
        rw [if_neg (by simp [hc])]
        exact gObjLoop_absent _ _ name 0 [] r hb' hk'
      split
      · unfold gArr gArrVals
        cases name with
        | nil => exact absurd rfl h8
        | cons c t =>
          simp only
          rw [if_neg (by intro h; rw [h] at h4; simp at h4), h7]
          rfl
      · rfl
  rw [get_eq, getBody, getFirst_eq, h1]
  simp only [h9, hm, hmp, go arg hb hk]
  rfl

theorem width_pfx (o : PrettyOptions) (x : Int) : ({ o with width := x } : PrettyOptions).pfx = o.pfx := rfl

theorem setWidth_pfx (o : PrettyOptions) (w : Nat) : (o.setWidth w).pfx = o.pfx := width_pfx o _

/-- Without a member `prefix` in its argument, `@pretty` makes no unclosed string. -/
theorem modPretty_nu {json arg out : Bytes} (hj : pk json) (hb : c! '\\' ∉ arg) (hk : ¬ quoted b!"prefix" <:+: arg)
    (h : modPretty get json arg = .ok out) : nu out := by
  unfold modPretty at h
  split at h
  · rw [get_absent (by decide) hb hk] at h
    obtain ⟨vi, _, h⟩ := bind_eq_ok.1 h
    rw [ok_bind] at h
    obtain ⟨vs, _, h⟩ := bind_eq_ok.1 h
    obtain ⟨vw, _, h⟩ := bind_eq_ok.1 h
    obtain ⟨o1, e1, h⟩ := bind_eq_ok.1 h
    obtain ⟨o2, e2, h⟩ := bind_eq_ok.1 h
    obtain ⟨o3, e3, h⟩ := bind_eq_ok.1 h
    obtain ⟨o4, e4, h⟩ := bind_eq_ok.1 h
    refine prettyOptions_nu ?_ hj h
    have p1 : o1.pfx = [] := by
      unfold optIndent at e1
      split at e1
      · obtain ⟨s, _, e⟩ := bind_eq_ok.1 e1; cases e; rfl
      · cases e1; rfl
    have p2 : o2.pfx = [] := by
      unfold optPrefix at e2
      rw [if_neg (by decide)] at e2
      cases e2; exact p1
    have p3 : o3.pfx = [] := by
      unfold optSortKeys at e3
      split at e3
      · obtain ⟨s, _, e⟩ := bind_eq_ok.1 e3; cases e; exact p2
      · cases e3; exact p2
    unfold optWidth at e4
    split at e4
    · obtain ⟨s, _, e⟩ := bind_eq_ok.1 e4
      rw [← Except.ok.inj e, setWidth_pfx]
      exact p3
    · cases e4; exact p3
  · exact prettyOptions_nu (o := PrettyOptions.default) (by decide) hj (by unfold pretty at h; exact h)

end Gjson
