import Verif.Lemmas.LexedMods
import Verif.Lemmas.SizePretty
/-
`pretty` keeps texts of whole tokens.
-/
namespace Gjson
open Spec

variable {Q : Bytes → Prop}

theorem prettyNumberEnd_lexed {json : Bytes} {r : Bytes} (hr : ∀ c ∈ r.head?, IsWs c ∨ c ∈ b!",:]}") :
    ∀ {n i : Nat} {t : Bytes}, (∀ c ∈ t, NumCh c) → At json i (t ++ r) → t.length < n → prettyNumberEnd json n i = .ok (i + t.length)
  | 0, _, _, _, _, h => by omega
  | n + 1, i, [], _, hA, _ => by
    unfold prettyNumberEnd
    cases r with
    | nil => rw [if_neg (by have := At.nil hA; omega)]; rfl
    | cons c r =>
      rw [if_pos (At.lt hA), At.idx hA]
      simp only [ok_bind]
      have := hr c (by simp)
      simp only [List.mem_cons, List.not_mem_nil, or_false] at this
      rw [if_pos (by unfold IsWs at this; grind)]; rfl
  | n + 1, i, c :: t, ht, hA, hn => by
    unfold prettyNumberEnd
    rw [if_pos (At.lt hA), At.idx hA]
    simp only [ok_bind]
    have := ht c (by simp)
    rw [if_neg (by unfold NumCh at this; grind (splits := 30))]
    rw [prettyNumberEnd_lexed hr (fun x hx => ht x (by simp [hx])) (At.cons hA) (by simp at hn; omega)]
    simp; omega

/-- What was added is a text of whole tokens, and so is what is left. -/
def WritesTokens (Q : Bytes → Prop) (json buf : Bytes) (r : PRes) : Prop :=
  ∀ x, r = .ok x → ∃ app st s', x.1 = buf ++ app ∧ Lexed Q true app st ∧ At json x.2.1 s' ∧ InTokens Q s'

theorem repeat_ws {b : Bytes} (h : Ws b) : ∀ n, Ws (repeatBytes n b)
  | 0 => by intro c hc; simp [repeatBytes] at hc
  | n + 1 => by
    intro c hc
    unfold repeatBytes at hc
    rcases List.mem_append.1 hc with hc | hc
    · exact h c hc
    · exact repeat_ws h n c hc

/-- Only whitespace is written between the tokens. -/
def Airy (a : PArgs) : Prop := Ws a.pfx ∧ Ws a.indent

theorem extendTabs_airy {buf pfx indent : Bytes} {tabs : Int} (hp : Ws pfx) (hi : Ws indent) :
    ∃ w, Ws w ∧ extendTabs buf pfx indent tabs = buf ++ w := by
  unfold extendTabs
  split
  · exact ⟨pfx ++ repeatBytes tabs.toNat indent, fun c hc => (List.mem_append.1 hc).elim (hp c) (repeat_ws hi _ c), by simp⟩
  · exact ⟨_, repeat_ws hi _, rfl⟩

theorem prettyString_writes {json buf r : Bytes} {i : Nat} {nl : Int} (hA : At json i (c! '"' :: r)) (h : InTokens Q (c! '"' :: r))
    {x : Bytes × Nat × Int × Bool} (hx : prettyString buf json i nl = .ok x) :
    ∃ app s', x.1 = buf ++ app ∧ Lexed Q true app true ∧ At json x.2.1 s' ∧ InTokens Q s' := by
  obtain ⟨e, h⟩ := h
  obtain ⟨_, b, q, h1, h2, h3, h4, _, h6⟩ := h.quote
  rw [prettyString_eq _ _ hA, h6] at hx
  cases hx
  refine ⟨_, q, rfl, lexed_str ⟨b, h2, rfl⟩ h3, ?_, ⟨e, h4⟩⟩
  have := hA.cons
  rw [h1, show b ++ c! '"' :: q = (b ++ [c! '"']) ++ q by simp] at this
  exact this.append

theorem prettyNumber_writes {json buf r : Bytes} {c : UInt8} {i : Nat} {nl : Int} (hA : At json i (c :: r)) (hc : NumStart c) (h : InTokens Q (c :: r)) :
    WritesTokens Q json buf (prettyNumber buf json i nl) := by
  intro x hx
  obtain ⟨e, h⟩ := h
  obtain ⟨_, t, q, h1, h2, h3, h4, _, _⟩ := h.number hc
  have hA' := hA.cons
  rw [h1] at hA'
  unfold prettyNumber at hx
  rw [prettyNumberEnd_lexed h4.closed (fun x hx => numLit_numCh h2 x (by simp [hx])) hA' (by have := hA'.len; simp at this; omega)] at hx
  simp only [ok_bind] at hx
  have hA2 : At json i ((c :: t) ++ q) := by rw [h1] at hA; exact hA
  rw [hA2.slice' (by simp; omega)] at hx
  cases hx
  exact ⟨_, false, q, rfl, lexed_num h2 h3, hA'.append, h4.inTokens⟩

/-! ### The members of an object in order -/

/-- A recorded member of an object: what it is in what was written. -/
def RowIn (Q : Bytes → Prop) (base app : Bytes) (p : Pair) : Prop :=
  ∃ x row y m, app = x ++ (row ++ y) ∧ p.vstart = (base ++ x).length ∧ p.vend = p.vstart + row.length ∧ Lexed Q true x true ∧ Lexed Q true row m

theorem RowIn.more {base app app' : Bytes} {p : Pair} (h : RowIn Q base app p) : RowIn Q base (app ++ app') p := by
  obtain ⟨x, row, y, m, h1, h2, h3, h4, h5⟩ := h
  exact ⟨x, row, y ++ app', m, by rw [h1]; simp, h2, h3, h4, h5⟩

theorem RowIn.slice {base app v : Bytes} {p : Pair} (h : RowIn Q base app p) (hs : slice (base ++ app) p.vstart p.vend = .ok v) : InTokens Q v := by
  obtain ⟨x, row, y, m, h1, h2, h3, h4, h5⟩ := h
  have : At (base ++ app) p.vstart (row ++ y) := by
    rw [h1, h2, ← List.append_assoc]
    exact At.of_pre _ _
  rw [this.slice' h3] at hs
  cases hs
  exact ⟨m, h5⟩

theorem joinPairs_lexed {base app : Bytes} : ∀ {l : List Pair} {r : Bytes}, (∀ p ∈ l, RowIn Q base app p) → joinPairs (base ++ app) l = .ok r → InTokens Q r
  | [], r, _, hr => by cases hr; exact inTokens_nil
  | [p], r, h, hr => (h p (by simp)).slice hr
  | p :: q :: l, r, h, hr => by
    unfold joinPairs at hr
    obtain ⟨v, h1, hr⟩ := bind_eq_ok.1 hr
    obtain ⟨s, h2, hr⟩ := bind_eq_ok.1 hr
    cases hr
    obtain ⟨e, g1⟩ := (h p (by simp)).slice h1
    obtain ⟨e', g2⟩ := joinPairs_lexed (l := q :: l) (fun x hx => h x (by simp [hx])) h2
    exact ⟨e', (g1.append (.sep (by decide) (.ws (by decide) .nil))).append g2⟩

theorem sortPairList_perm {json : Bytes} {pairs l : List Pair} (h : sortPairList json pairs = .ok l) : l.Perm pairs := by
  unfold sortPairList at h
  split at h
  · cases h; exact .refl _
  · obtain ⟨ks, h1, h⟩ := bind_eq_ok.1 h
    cases h
    have := mapM_snd h1
    rw [← this]
    exact (sortByKey_perm ks).map Prod.snd

theorem sortPairs_lexed {json base app b : Bytes} {st : Bool} {pairs : List Pair} (ha : Lexed Q true app st) (hp : ∀ p ∈ pairs, RowIn Q base app p)
    (h : sortPairs json (base ++ app) pairs = .ok b) : ∃ app' st', b = base ++ app' ∧ Lexed Q true app' st' := by
  unfold sortPairs at h
  split at h
  · cases h; exact ⟨app, st, rfl, ha⟩
  · rename_i p0 rest
    obtain ⟨l, h1, h⟩ := bind_eq_ok.1 h
    obtain ⟨nb, h2, h⟩ := bind_eq_ok.1 h
    cases h
    obtain ⟨e, g1⟩ := joinPairs_lexed (fun p hm => hp p ((sortPairList_perm h1).mem_iff.1 hm)) h2
    obtain ⟨x, row, y, m, f1, f2, f3, f4, f5⟩ := hp p0 (by simp)
    refine ⟨x ++ nb, e, ?_, f4.append g1⟩
    rw [f1, f2, ← List.append_assoc base x, List.take_left', List.append_assoc]
    rfl

theorem closeLine_lexed {nl : Int} {base app : Bytes} {st : Bool} {n : Nat} (h : Lexed Q true app st) {x : Int × Bytes} (hx : closeLine nl (base ++ app) n = .ok x) :
    ∃ app', x.2 = base ++ app' ∧ Lexed Q true app' st := by
  unfold closeLine at hx
  split at hx
  · obtain ⟨l, _, h2⟩ := bind_eq_ok.1 hx
    cases h2
    simp only
    split
    · exact ⟨app ++ [c! '\n'], by simp, h.append (.ws (by decide) .nil)⟩
    · exact ⟨app, rfl, h⟩
  · cases hx; exact ⟨app, rfl, h⟩

theorem prettyClose_lexed {json base app r : Bytes} {opn cls : UInt8} {a : PArgs} {tabs : Int} {i : Nat} {nl : Int} {pairs : List Pair} {n : Nat} {st : Bool}
    (ha : Airy a) (hc : cls ∈ b!",:]}") (h : Lexed Q true app st) (hp : ∀ p ∈ pairs, RowIn Q base app p) (hA : At json i (cls :: r)) (hr : InTokens Q r) :
    WritesTokens Q json base (prettyClose json opn cls a tabs i nl (base ++ app) pairs n) := by
  intro x hx
  unfold prettyClose at hx
  split at hx
  · obtain ⟨b1, h1, hx⟩ := bind_eq_ok.1 hx
    have g1 : ∃ app' st', b1 = base ++ app' ∧ Lexed Q true app' st' := by
      unfold closeSort at h1
      split at h1
      · exact sortPairs_lexed h hp h1
      · cases h1; exact ⟨app, st, rfl, h⟩
    obtain ⟨app', st', rfl, g1⟩ := g1
    obtain ⟨⟨nl2, b2⟩, h2, hx⟩ := bind_eq_ok.1 hx
    obtain ⟨app2, e2, g2⟩ := closeLine_lexed g1 h2
    simp only at hx e2
    subst e2
    obtain ⟨l, _, hx⟩ := bind_eq_ok.1 hx
    cases hx
    simp only
    split
    · obtain ⟨w, hw, e⟩ := extendTabs_airy (buf := base ++ app2) (tabs := tabs) ha.1 ha.2
      rw [e]
      exact ⟨app2 ++ w ++ [cls], true, r, by simp, (g2.append (lexed_ws hw)).append (lexed_sep hc), hA.cons, hr⟩
    · exact ⟨app2 ++ [cls], true, r, by simp, g2.append (lexed_sep hc), hA.cons, hr⟩
  · cases hx
    exact ⟨app ++ [cls], true, r, by simp, h.append (lexed_sep hc), hA.cons, hr⟩

/-! ### Elements and members -/

theorem line_lexed {opn : UInt8} (ho : opn ∈ b!"[{") {a : PArgs} {nl : Int} {base app : Bytes} {st : Bool} {n : Nat} (h : Lexed Q true app st) (h0 : n = 0 → app = [opn])
    {x : Int × Bytes} (hx : prettyLine a nl (prettySep opn a (base ++ app) n) = .ok x) :
    ∃ more, x.2 = base ++ (app ++ more) ∧ Lexed Q true (app ++ more) true := by
  unfold prettyLine prettySep at hx
  have hcomma : Lexed Q true (app ++ [c! ',']) true := h.append (lexed_sep (by decide))
  by_cases hn : n > 0
  · simp only [if_pos hn] at hx
    by_cases hw : a.width ≠ -1 ∧ opn = c! '['
    · simp only [if_pos hw] at hx
      split at hx
      · obtain ⟨l, h1, h2⟩ := bind_eq_ok.1 hx
        cases h2
        obtain ⟨b, hb⟩ := lastByte_of h1
        have hl : l = c! ' ' := by
          have := congrArg List.getLast? hb
          simp at this
          exact this.symm
        simp only
        rw [if_pos hl]
        refine ⟨[c! ',', c! '\n'], ?_, h.append (.sep (by decide) (.ws (by decide) .nil))⟩
        rw [List.take_left' (by simp)]
        simp
      · cases hx
        exact ⟨[c! ',', c! ' '], by simp, h.append (.sep (by decide) (.ws (by decide) .nil))⟩
    · simp only [if_neg hw] at hx
      split at hx
      · obtain ⟨l, h1, h2⟩ := bind_eq_ok.1 hx
        cases h2
        obtain ⟨b, hb⟩ := lastByte_of h1
        have hl : l = c! ',' := by
          have := congrArg List.getLast? hb
          simp at this
          exact this.symm
        simp only
        rw [if_neg (by rw [hl]; decide)]
        exact ⟨[c! ',', c! '\n'], by simp, h.append (.sep (by decide) (.ws (by decide) .nil))⟩
      · cases hx
        exact ⟨[c! ','], by simp, hcomma⟩
  · have := h0 (by omega)
    subst this
    simp only [if_neg hn] at hx
    have hone : Lexed Q true [opn] true := lexed_opn ho
    split at hx
    · obtain ⟨l, h1, h2⟩ := bind_eq_ok.1 hx
      cases h2
      obtain ⟨b, hb⟩ := lastByte_of h1
      have hl : l = opn := by
        have := congrArg List.getLast? hb
        simp at this
        exact this.symm
      simp only
      rw [if_neg (by
        rw [hl]
        have : ∀ o ∈ b!"[{", o ≠ c! ' ' := by decide
        exact this opn ho)]
      exact ⟨[c! '\n'], by simp, hone.append (.ws (by decide) .nil)⟩
    · cases hx
      exact ⟨[], by simp, by simpa using hone⟩

theorem indent_lexed {a : PArgs} (ha : Airy a) {tabs : Int} {buf : Bytes} : ∃ w, Ws w ∧ prettyIndent a tabs buf = buf ++ w := by
  unfold prettyIndent
  split
  · exact extendTabs_airy ha.1 ha.2
  · exact ⟨[], by intro c hc; simp at hc, by simp⟩

/-- `extend_pretty_any` writes whole tokens. -/
def AnyWritesTokens (Q : Bytes → Prop) (json : Bytes) (any : PrettyFn) : Prop :=
  ∀ a tabs max depth buf i nl s, Airy a → At json i s → InTokens Q s → WritesTokens Q json buf (any a tabs max depth buf i nl)

/-- Where the loop over elements or members is. -/
def Before (Q : Bytes → Prop) (opn : UInt8) (s : Bytes) : Prop := (opn = c! '[' ∧ InTokens Q s) ∨ (opn = c! '{' ∧ Amid Q s)

theorem Spec.InTokens.before {opn : UInt8} {s : Bytes} (ho : opn = c! '[' ∨ opn = c! '{') (h : InTokens Q s) : Before Q opn s := by
  rcases ho with ho | ho
  · exact .inl ⟨ho, h⟩
  · exact .inr ⟨ho, h.amid⟩

theorem prettyObjLoop_writes {json : Bytes} {any : PrettyFn} (hany : AnyWritesTokens Q json any) {opn cls : UInt8}
    (ho : (opn = c! '[' ∧ cls = c! ']') ∨ (opn = c! '{' ∧ cls = c! '}')) {base : Bytes}
    {a : PArgs} (ha : Airy a) {tabs max : Int} {depth : Nat} :
    ∀ (fuel i : Nat) (nl : Int) (app s : Bytes) (st : Bool) (pairs : List Pair) (n : Nat), Lexed Q true app st → (n = 0 → app = [opn]) →
    (∀ p ∈ pairs, RowIn Q base app p) → At json i s → Before Q opn s →
    WritesTokens Q json base (prettyObjLoop any json opn cls a tabs max depth fuel i nl (base ++ app) pairs n)
  | 0, _, _, _, _, _, _, _, _, _, _, _, _ => by intro x h; simp [prettyObjLoop, outOfFuel] at h
  | fuel + 1, i, nl, app, s, st, pairs, n, happ, h0, hpairs, hA, hs => by
    intro x h
    have ho1 : opn = c! '[' ∨ opn = c! '{' := ho.imp And.left And.left
    unfold prettyObjLoop at h
    cases s with
    | nil =>
      rw [if_neg (by have := hA.nil; omega)] at h
      cases h
      exact ⟨app, st, [], rfl, happ, hA, inTokens_nil⟩
    | cons c r =>
      rw [if_pos hA.lt, hA.idx] at h
      simp only [ok_bind] at h
      split at h
      · rename_i hc
        refine prettyObjLoop_writes hany ho ha fuel _ _ _ r _ _ _ happ h0 hpairs hA.cons ?_ x h
        rcases hs with ⟨h1, e, h2⟩ | ⟨h1, h2⟩
        · exact .inl ⟨h1, e, (h2.blank hc).2⟩
        · exact .inr ⟨h1, h2.skip (by rintro rfl; exact absurd hc (by decide))⟩
      split at h
      · rename_i hc
        subst hc
        refine prettyClose_lexed ha ?_ happ hpairs hA ?_ x h
        · rcases ho with ⟨_, rfl⟩ | ⟨_, rfl⟩ <;> decide
        · rcases hs with ⟨h1, e, h2⟩ | ⟨h1, h2⟩
          · refine ⟨e, h2.mark ?_⟩
            rcases ho with ⟨_, rfl⟩ | ⟨_, rfl⟩ <;> decide
          · rcases ho with ⟨h3, _⟩ | ⟨_, rfl⟩
            · rw [h1] at h3; exact absurd h3 (by decide)
            · exact h2.close
      split at h
      · rename_i hc
        have hin : InTokens Q (c :: r) := by
          rcases hs with ⟨_, h2⟩ | ⟨h1, h2⟩
          · exact h2
          · rcases hc with hc | hc
            · rw [h1] at hc; exact absurd hc (by decide)
            · subst hc; exact h2.quote
        obtain ⟨⟨nl1, b1⟩, h1, h⟩ := bind_eq_ok.1 h
        obtain ⟨more, e1, g1⟩ := line_lexed (by rcases ho1 with rfl | rfl <;> decide) happ h0 h1
        simp only at h e1
        subst e1
        obtain ⟨w, hw, e2⟩ := indent_lexed ha (tabs := tabs) (buf := base ++ (app ++ more))
        rw [e2] at h
        obtain ⟨⟨b2, i2, nl2, k2⟩, h2, h⟩ := bind_eq_ok.1 h
        have hkey : ∃ key s2, b2 = (base ++ (app ++ more) ++ w) ++ key ∧ Lexed Q true key true ∧ At json i2 s2 ∧ InTokens Q s2 := by
          unfold prettyKey at h2
          split at h2
          · rename_i hopn
            have hq : c = c! '"' := by
              rcases hc with hc | hc
              · rw [hopn] at hc; exact absurd hc (by decide)
              · exact hc
            subst hq
            obtain ⟨y, h3, h4⟩ := bind_eq_ok.1 h2
            obtain ⟨key, s2, f1, f2, f3, f4⟩ := prettyString_writes hA hin h3
            obtain ⟨y1, y2, y3, y4⟩ := y
            simp only at f1 f3 h4
            cases h4
            subst f1
            split
            · exact ⟨key ++ [c! ':', c! ' '], s2, by simp, f2.append (.sep (by decide) (.ws (by decide) .nil)), f3, f4⟩
            · exact ⟨key ++ [c! ':'], s2, by simp, f2.append (.sep (by decide) .nil), f3, f4⟩
          · cases h2
            exact ⟨[], c :: r, by simp, .nil, hA, hin⟩
        obtain ⟨key, s2, rfl, g2, hA2, hs2⟩ := hkey
        obtain ⟨⟨b3, i3, nl3, ok3⟩, h3, h⟩ := bind_eq_ok.1 h
        obtain ⟨val, m3, s3, f1, f2, hA3, hs3⟩ := hany _ _ _ _ _ _ _ _ ha hA2 hs2 _ h3
        simp only at f1 h hA3
        subst f1
        have hrow : Lexed Q true (w ++ (key ++ val)) m3 := (lexed_ws hw).append (g2.append f2)
        have hall : Lexed Q true (app ++ more ++ (w ++ (key ++ val))) m3 := g1.append hrow
        have eb : base ++ (app ++ more) ++ w ++ key ++ val = base ++ (app ++ more ++ (w ++ (key ++ val))) := by simp
        rw [eb] at h
        split at h
        · cases h
          exact ⟨_, m3, s3, rfl, hall, hA3, hs3⟩
        split at h
        · simp [rpanic] at h
        · rename_i hi3
          rw [show i3 - 1 + 1 = i3 by omega] at h
          refine prettyObjLoop_writes hany ho ha fuel _ _ _ s3 m3 _ _ hall (by omega) ?_ hA3 (hs3.before ho1) x h
          intro p hp
          have hold : ∀ p ∈ pairs, RowIn Q base (app ++ more ++ (w ++ (key ++ val))) p := by
            intro p hp
            rw [List.append_assoc]
            exact (hpairs p hp).more
          unfold prettyPairs at hp
          split at hp
          · rcases List.mem_append.1 hp with hp | hp
            · exact hold p hp
            · simp only [List.mem_singleton] at hp
              subst hp
              exact ⟨app ++ more, w ++ (key ++ val), [], m3, by simp, rfl, by simp; omega, g1, hrow⟩
          · exact hold p hp
      · rename_i hc
        refine prettyObjLoop_writes hany ho ha fuel _ _ _ r _ _ _ happ h0 hpairs hA.cons ?_ x h
        rcases hs with ⟨h1, _⟩ | ⟨h1, h2⟩
        · exact absurd (.inl h1) hc
        · exact .inr ⟨h1, h2.skip fun e => hc (.inr e)⟩

theorem prettyObj_writes {json : Bytes} {any : PrettyFn} (hany : AnyWritesTokens Q json any) :
    ∀ (k : Nat) {opn cls : UInt8} (_ : (opn = c! '[' ∧ cls = c! ']') ∨ (opn = c! '{' ∧ cls = c! '}')) (a : PArgs) (tabs max : Int) (depth : Nat) (buf r : Bytes) (i : Nat) (nl : Int),
    Airy a → At json i (opn :: r) → InTokens Q (opn :: r) → WritesTokens Q json buf (prettyObj any json k opn cls a tabs max depth buf i nl)
  | 0, _, _, _, _, _, _, _, _, _, _, _, _, _, _ => by intro x h; simp [prettyObj, outOfFuel] at h
  | k + 1, opn, cls, ho, a, tabs, max, depth, buf, r, i, nl, ha, hA, hs => by
    intro x h
    have ho1 : opn = c! '[' ∨ opn = c! '{' := ho.imp And.left And.left
    have hr : InTokens Q r := by
      obtain ⟨e, hs⟩ := hs
      exact ⟨e, (hs.bracket ho1.symm).2⟩
    unfold prettyObj at h
    split at h
    · rw [hA.sliceFrom, ok_bind, ugly_eq, ok_bind] at h
      cases h
      obtain ⟨e, hs⟩ := hs
      exact ⟨_, e, [], rfl, pUgly_lexed hs, ⟨Nat.le_refl _, by simp⟩, inTokens_nil⟩
    have hbody := prettyObjLoop_writes hany ho ha (base := buf) (tabs := tabs) (max := max) (depth := depth) (json.length + 1) (i + 1) nl
      [opn] r true [] 0 (lexed_opn (by rcases ho1 with rfl | rfl <;> decide)) (fun _ => rfl) (by simp) hA.cons (hr.before ho1)
    simp only at h
    split at h
    · split at h
      · rename_i hcond
        obtain ⟨_, rfl, _⟩ := hcond
        split at h
        · obtain ⟨⟨b1, i1, nl1, ok1⟩, h1, h⟩ := bind_eq_ok.1 h
          have := prettyObj_writes hany k (.inl ⟨rfl, rfl⟩) { a with pretty := false, indent := [] } _ _ _ _ r _ _ ⟨ha.1, by intro c hc; simp at hc⟩ hA hs _ h1
          simp only at h
          split at h
          · cases h; exact this
          · exact hbody x h
        · exact hbody x h
      · split at h
        · cases h
          exact ⟨[], true, _, by simp, .nil, hA, hs⟩
        · exact hbody x h
    · exact hbody x h

theorem prettyAnyLoop_writes {json : Bytes} {any : PrettyFn} (hany : AnyWritesTokens Q json any) {a : PArgs} (ha : Airy a)
    {tabs max : Int} {depth : Nat} {buf : Bytes} {nl : Int} :
    ∀ (n i : Nat) (s : Bytes), At json i s → InTokens Q s → WritesTokens Q json buf (prettyAnyLoop any json a tabs max depth buf nl n i)
  | 0, _, _, _, _ => by intro x h; simp [prettyAnyLoop, outOfFuel] at h
  | n + 1, i, [], hA, _ => by
    intro x h
    unfold prettyAnyLoop at h
    rw [if_neg (by have := hA.nil; omega)] at h
    cases h
    exact ⟨[], true, [], by simp, .nil, hA, inTokens_nil⟩
  | n + 1, i, c :: r, hA, hs => by
    intro x h
    obtain ⟨e, hl⟩ := id hs
    unfold prettyAnyLoop at h
    rw [if_pos hA.lt, hA.idx] at h
    simp only [ok_bind] at h
    split at h
    · rename_i hc
      exact prettyAnyLoop_writes hany ha n _ r hA.cons ⟨e, (hl.blank hc).2⟩ x h
    rename_i hb
    split at h
    · rename_i hc
      subst hc
      obtain ⟨app, s', f1, f2, f3, f4⟩ := prettyString_writes hA hs h
      exact ⟨app, true, s', f1, f2, f3, f4⟩
    rename_i hq
    split at h
    · rename_i hc
      exact prettyNumber_writes hA (by unfold NumStart; grind) hs x h
    rename_i hn
    split at h
    · rename_i hc
      subst hc
      exact prettyObj_writes hany _ (.inr ⟨rfl, rfl⟩) _ _ _ _ _ r _ _ ha hA hs x h
    rename_i ho
    split at h
    · rename_i hc
      subst hc
      exact prettyObj_writes hany _ (.inl ⟨rfl, rfl⟩) _ _ _ _ _ r _ _ ha hA hs x h
    rename_i ha'
    by_cases hm : c ∈ b!",:]}"
    · simp only [List.mem_cons, List.not_mem_nil, or_false] at hm
      rw [if_neg (by grind), if_neg (by grind), if_neg (by grind)] at h
      exact prettyAnyLoop_writes hany ha n _ r hA.cons ⟨e, hl.mark (by simpa using hm)⟩ x h
    · obtain ⟨_, t, q, f1, f2, f3, f4⟩ := hl.name hb hm (by grind) (by unfold NumStart; grind) hq
      have hA2 : At json i ((c :: t) ++ q) := by rw [f1] at hA; exact hA
      have hA3 := hA2.append
      have hw := lexed_word f2 f3
      rcases word_head f2 with ⟨rfl, rfl⟩ | ⟨rfl, rfl⟩ | ⟨rfl, rfl⟩
      · rw [if_pos rfl] at h
        cases h
        exact ⟨_, true, q, rfl, hw, hA3, ⟨e, f4⟩⟩
      · rw [if_neg (by decide), if_pos rfl] at h
        cases h
        exact ⟨_, true, q, rfl, hw, hA3, ⟨e, f4⟩⟩
      · rw [if_neg (by decide), if_neg (by decide), if_pos rfl] at h
        cases h
        exact ⟨_, true, q, rfl, hw, hA3, ⟨e, f4⟩⟩

theorem prettyAny_writes {json : Bytes} : ∀ d, AnyWritesTokens Q json (prettyAny json d)
  | 0 => fun _ _ _ _ _ _ _ _ _ _ _ => by intro x h; simp [prettyAny, outOfFuel] at h
  | d + 1 => fun _ _ _ _ _ _ _ _ ha hA hs => prettyAnyLoop_writes (prettyAny_writes d) ha _ _ _ hA hs

theorem prettyOptions_lexed {json out : Bytes} {o : PrettyOptions} (hj : InTokens Q json) (hp : Ws o.pfx) (hi : Ws o.indent)
    (h : prettyOptions json o = .ok out) : InTokens Q out := by
  unfold prettyOptions at h
  obtain ⟨⟨b, i, nl, k⟩, h1, h⟩ := bind_eq_ok.1 h
  have hb : Ws (if o.pfx.length ≠ 0 then o.pfx else []) := by
    split
    · exact hp
    · intro c hc; simp at hc
  obtain ⟨app, st, s', f1, f2, _⟩ := prettyAny_writes _ _ _ _ _ _ _ _ _ ⟨hp, hi⟩ (At.zero json) hj _ h1
  cases h
  simp only at f1 ⊢
  have : Lexed Q true b st := by rw [f1]; exact (lexed_ws hb).append f2
  split
  · exact ⟨st, this.append (.ws (by decide) .nil)⟩
  · exact ⟨st, this⟩

end Gjson
