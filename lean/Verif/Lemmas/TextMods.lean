import Verif.Lemmas.Reading
import Verif.Lemmas.ModsText
/-
The modifiers on any text, as in `Spec.Turns`.
-/
namespace Gjson
open Spec

/-! ### Values with their places -/

/-- A value met in a text, with its place. -/
def TextAt (json : Bytes) (x : Value) (v : Bytes) : Prop :=
  SameAsText x v ∧ Readable v ∧ ∃ i r info, 0 < i ∧ x = mkVal v (some i) info ∧ At json i (v ++ r)

theorem toks_valueAt {s v r : Bytes} (h : ValueAt s v r) (i : Nat) : ∃ info, SameAsText (mkVal v (some i) info) v ∧
    toks i s = mkVal v (some i) info :: toks (i + v.length) r := by
  obtain ⟨c, q, rfl⟩ := valueAt_cons h
  obtain ⟨h1, h2⟩ := valueAt_head h
  obtain ⟨h3, h4, h5⟩ := valueAt_tok h i
  obtain ⟨info, h6, h7⟩ := valueAt_leaf h
  have hl := congrArg List.length (valueAt_append h)
  rw [List.length_append] at hl
  have e : tokVal i (leafTok (c :: q)).1 = mkVal v (some i) info := by rw [h6]; rfl
  refine ⟨info, ?_, ?_⟩
  · have := prov_same (.tok i (c :: q)) h4
    rwa [h3, e] at this
  · rw [toks_tok h1 h2, if_pos h4, h5, e, hl]
    congr 2
    omega

theorem listing_at {json s : Bytes} {vs : List Bytes} (h : Listing s vs) : ∀ i, 0 < i → At json i s → Aligned (TextAt json) (toks i s) vs := by
  induction h with
  | nil => intro i _ _; rw [toks_nil]; exact .nil
  | skip hc _ ih => intro i _ hA; rw [toks_skip (by simp at hc; exact hc)]; exact ih _ (by omega) hA.cons
  | close hc => intro i _ _; rw [toks_close (by simp at hc; grind)]; exact .nil
  | @value s v r vs hv _ ih =>
    intro i hi hA
    obtain ⟨info, h1, h2⟩ := toks_valueAt hv i
    rw [valueAt_append hv] at hA
    rw [h2]
    exact .cons ⟨h1, ⟨_, _, hv⟩, i, r, info, hi, rfl, hA⟩ (ih _ (by omega) hA.append)
  | @broken c r h1 h2 h3 =>
    intro i _ _
    simp only [List.mem_cons, List.not_mem_nil, or_false, not_or] at h2
    rw [toks_tok (by rintro (h | h) <;> grind) (by grind), if_neg (by rw [(noValue_leaf h3).1]; decide)]
    exact .nil

theorem each_listing {v : Value} {q : Bytes} {vs : List Bytes} (hj : v.json = c! '[' :: q) (hk : v.kind = .array) (hl : Listing q vs) :
    ∃ vals, Aligned (TextAt v.json) vals vs ∧ ∀ (σ : Type) (f : σ → Value → Value → Res (σ × Bool)) (st : σ),
      v.each f st = visit (fun st e => f st Value.default e) st vals := by
  have hA := At.zero v.json
  rw (occs := .pos [2]) [hj] at hA
  refine ⟨toks 1 q, listing_at hl 1 (by omega) hA.cons, fun σ f st => ?_⟩
  rw [each_eq hj (.inr hk), hk, eachPairs, if_neg (by decide)]
  generalize toks 1 q = vals
  induction vals generalizing st with
  | nil => rfl
  | cons x l ih =>
    simp only [List.map_cons, visit]
    cases h : f st Value.default x with
    | error e => rfl
    | ok y => obtain ⟨st', m⟩ := y; simp only; rw [ih]

theorem each_twos {v : Value} {q : Bytes} (hj : v.json = c! '{' :: q) (hk : v.kind = .object) (σ : Type) (f : σ → Value → Value → Res (σ × Bool)) (st : σ) :
    v.each f st = visit (fun st p => f st p.1 p.2) st (pairUp (toks 1 q)) := by
  rw [each_eq hj (.inl hk), hk, eachPairs, if_pos rfl]

theorem pairUp_twos {R : Value → Bytes → Prop} : ∀ {l : List Value} {vs : List Bytes}, Aligned R l vs →
    Aligned (fun p m => R p.1 m.1 ∧ R p.2 m.2) (pairUp l) (twos vs)
  | [], _, h => by cases h; exact .nil
  | [_], _, h => by cases h with | cons _ h => cases h; exact .nil
  | a :: b :: l, _, h => by
    cases h with
    | cons h1 h =>
      cases h with
      | cons h2 h => exact .cons ⟨h1, h2⟩ (pairUp_twos h)

/-! ### What `parse` makes -/

theorem parsed_value {doc x : Bytes} (h : Parsed doc x) : ∃ v, parse doc = .ok v ∧ v.json = x ∧ v.slice = x ∧ v.json.length ≤ doc.length ∧
    (v.kind = .object → kindOf x = .object) ∧ (v.kind = .array → kindOf x = .array) ∧ (x ≠ [] → v.kind = kindOf x) := by
  have h1 := parsed_json h 0
  have h2 := pParse_slice doc 0
  have h3 : x ≠ [] → (pParse 0 doc).kind = kindOf x := fun hx => by
    have := pParse_kindOf doc 0 (by rw [h1]; exact hx)
    rwa [h1] at this
  have h4 : x = [] → (pParse 0 doc).kind ≠ .object ∧ (pParse 0 doc).kind ≠ .array := by
    rintro rfl
    generalize e : ([] : Bytes) = x at h
    cases h with
    | @cont w s hw hh => subst e; obtain ⟨c, h, _⟩ := hh; cases h
    | value _ _ hv => exact absurd e.symm (valueAt_ne hv)
    | @none w s hw hn hv =>
      rw [pParse_blank hw]
      by_cases hq : ∀ c ∈ s.head?, c ≠ c! '"'
      · rw [(pParse_none hn hv _).2 hq]; decide
      · cases s with
        | nil => exact absurd (by simp) hq
        | cons c r =>
          have : c = c! '"' := by simpa using hq
          subst this
          rw [pParse, if_neg (by decide), if_neg (by decide), if_neg (by decide), if_pos (by simp)]
          rcases qStr_cases r with ⟨b, q, _, rfl, hb, _⟩ | ⟨h, _⟩
          · exact absurd (.string hb) (hv _ _)
          · rw [leafTok, if_pos rfl, h]
            simp only [tokVal, mkVal_kind]
            decide
  refine ⟨_, parse_eq doc, h1, by rw [← h2.1]; exact h1, by rw [h2.1]; exact h2.2, fun hk => ?_, fun hk => ?_, h3⟩
  · by_cases hx : x = []
    · exact absurd hk (h4 hx).1
    · rw [← h3 hx]; exact hk
  · by_cases hx : x = []
    · exact absurd hk (h4 hx).2
    · rw [← h3 hx]; exact hk

/-! ### `@ugly` -/

theorem sEnd_body {b : Bytes} (h : QuotedBody b) (r : Bytes) : sEnd false (b ++ c! '"' :: r) = (b ++ [c! '"'], r) := by
  induction h with
  | nil => rw [List.nil_append, sEnd]; simp
  | @plain c b h1 h2 _ ih => rw [List.cons_append, sEnd, if_neg (by simp [h1])]; simp [h2, ih]
  | @esc e b _ ih => rw [List.cons_append, List.cons_append, sEnd, if_neg (by decide), sEnd]; simp [ih]

theorem sEnd_open : ∀ (n : Nat) (s : Bytes), s.length < n → (∀ b r, QuotedBody b → s ≠ b ++ c! '"' :: r) → sEnd false s = (s, []) := by
  intro n
  induction n with
  | zero => intro s h; omega
  | succ n ih =>
    intro s hl h
    cases s with
    | nil => rfl
    | cons c r =>
      have hc : c ≠ c! '"' := by rintro rfl; exact h [] r .nil rfl
      by_cases hb : c = c! '\\'
      · subst hb
        cases r with
        | nil => rfl
        | cons e r =>
          have := ih r (by simp at hl; omega) fun b q hb e' => h _ q (.esc (e := e) hb) (by rw [e']; rfl)
          rw [sEnd, if_neg (by decide), sEnd]; simp [this]
      · have := ih r (by simp at hl; omega) fun b q hq e' => h _ q (.plain hc hb hq) (by rw [e']; rfl)
        rw [sEnd, if_neg (by simp [hc])]; simp [hb, this]

theorem neverClosed_string {r : Bytes} (h : NeverClosed (c! '"' :: r)) : ∀ b q, QuotedBody b → r ≠ b ++ c! '"' :: q := by
  rintro b q hb rfl
  exact (h (c! '"' :: (b ++ [c! '"'])) q (by simp)).2 ⟨b, hb, rfl⟩

theorem pressed_ok {doc out : Bytes} (h : Pressed doc out) : pUgly doc = out := by
  induction h with
  | nil => exact pUgly_nil
  | blank hc _ ih => rw [pUgly_skip hc]; exact ih
  | string hb _ ih => rw [pUgly_quote, sEnd_body hb, ih]; simp
  | openString h => rw [pUgly_quote, sEnd_open _ _ (Nat.lt_succ_self _) (neverClosed_string h), pUgly_nil]; simp
  | other h1 h2 _ ih => rw [pUgly.eq_def]; simp only; rw [if_neg (by grind), if_neg h2, ih]

theorem pressed_total : ∀ (n : Nat) (s : Bytes), s.length < n → ∃ o, Pressed s o := by
  intro n
  induction n with
  | zero => intro s h; omega
  | succ n ih =>
    intro s hl
    cases s with
    | nil => exact ⟨_, .nil⟩
    | cons c r =>
      have hr : r.length < n := by simp at hl; omega
      by_cases h1 : c ≤ 0x20
      · obtain ⟨o, h⟩ := ih r hr; exact ⟨_, .blank h1 h⟩
      by_cases h2 : c = c! '"'
      · subst h2
        rcases qStr_cases r with ⟨b, q, _, rfl, hb, _⟩ | ⟨_, h⟩
        · obtain ⟨o, h⟩ := ih q (by simp at hr; omega); exact ⟨_, .string hb h⟩
        · exact ⟨_, .openString h⟩
      · obtain ⟨o, h⟩ := ih r hr; exact ⟨_, .other (by grind) h2 h⟩

theorem pressed_fair {doc out : Bytes} (h : Pressed doc out) (hf : Fair doc) : Fair out := by
  induction h with
  | nil => exact hf
  | @blank c r o hc _ ih =>
    refine ih fun w q hw e => ?_
    exact hf (c :: w) q (by intro x hx; rcases List.mem_cons.1 hx with rfl | hx; exact hc; exact hw x hx) (by rw [e]; rfl)
  | @string b r o hb _ _ =>
    intro w q hw e
    cases w with
    | nil => rw [List.nil_append] at e; rw [← e]; exact ⟨_, _, .string hb⟩
    | cons c w =>
      have := hw c (by simp)
      rw [List.cons_append, List.cons.injEq] at e
      rw [← e.1] at this
      exact absurd this (by decide)
  | openString => exact hf
  | other h1 h2 _ _ => exact fair_head fun c hc => by cases hc; exact ⟨h1, h2⟩

/-! ### `@reverse` -/

theorem toks_seps {w : Bytes} (h : Seps w) (s : Bytes) : ∀ i, toks i (w ++ s) = toks (i + w.length) s := by
  induction w with
  | nil => intro i; rfl
  | cons c w ih =>
    intro i
    have hc := h c (by simp)
    simp only [List.mem_cons, List.not_mem_nil, or_false] at hc
    rw [List.cons_append, toks_skip hc, ih (fun x hx => h x (by simp [hx]))]
    congr 1
    simp; omega

/-- A key and a value with the text from the one to the other. -/
def SpanAt (json : Bytes) (p : Value × Value) (t : Bytes) : Prop :=
  ∃ i k m v a b r, t = k ++ (m ++ v) ∧ p = (mkVal k (some i) a, mkVal v (some (i + k.length + m.length)) b) ∧ At json i (t ++ r)

theorem spans_at {json s : Bytes} {ps : List Bytes} (h : Spans s ps) : ∀ i, 0 < i → At json i s → Aligned (SpanAt json) (pairUp (toks i s)) ps := by
  induction h with
  | @rest s vs hl hn =>
    intro i hi hA
    have := aligned_length (listing_at hl i hi hA)
    have e : pairUp (toks i s) = [] := by
      cases ht : toks i s with
      | nil => rfl
      | cons a l =>
        cases l with
        | nil => rfl
        | cons b l => rw [ht] at this; simp at this; omega
    rw [e]
    exact .nil
  | @pair w k m v r ps hw hk hm hv _ ih =>
    intro i hi hA
    have hA := hA.append
    obtain ⟨a, _, h1⟩ := toks_valueAt hk (i + w.length)
    obtain ⟨b, _, h2⟩ := toks_valueAt hv (i + w.length + k.length + m.length)
    rw [toks_seps hw, h1, toks_seps hm, h2, pairUp]
    refine .cons ⟨_, k, m, v, a, b, r, rfl, rfl, by simpa using hA⟩ (ih _ (by omega) ?_)
    exact hA.append.append.append

theorem reverse_spans {a doc r : Bytes} {ps : List Bytes} (hp : Parsed doc (c! '{' :: r)) (hs : Spans r ps) :
    modApply get b!"reverse" doc a = .ok (c! '{' :: (commaSep ps.reverse ++ b!"}")) := by
  have e : modApply get b!"reverse" doc a = modReverse doc := rfl
  obtain ⟨v, h1, h2, h3, _, _, _, h4⟩ := parsed_value hp
  have hk : v.kind = .object := h4 (by simp)
  have hA := At.zero v.json
  rw (occs := .pos [2]) [h2] at hA
  have hal := spans_at hs 1 (by omega) hA.cons
  rw [e]
  unfold modReverse
  rw [h1]
  simp only [ok_bind, hk, each_twos h2 hk]
  generalize pairUp (toks 1 r) = l at hal
  have key : ∀ acc : List Bytes, visit (fun (st : List Bytes) (p : Value × Value) => do
        let kindex ← unwrapIndex p.1
        let vindex ← unwrapIndex p.2
        let s ← slice v.slice kindex (vindex + p.2.slice.length)
        .ok (st ++ [s], true)) acc l = .ok (acc ++ ps) := by
    have hs : v.slice = v.json := by rw [h2, h3]
    rw [hs]
    clear * - hal
    induction hal with
    | nil => intro acc; simp [visit]
    | @cons _ t _ bs hx _ ih =>
      intro acc
      obtain ⟨i, k, m, x, a, b, r, rfl, rfl, hA⟩ := hx
      have e1 : ∀ s i f, unwrapIndex (mkVal s (some i) f) = .ok i := by intro s i f; unfold unwrapIndex; rw [mkVal_index]
      have e2 := hA.slice' (j := i + k.length + m.length + x.length) (by simp; omega)
      simp only [visit, e1, ok_bind]
      simp only [mkVal_slice, e2]
      simp only [ok_bind]
      rw [if_pos trivial]
      simpa using ih (acc ++ [k ++ (m ++ x)])
  rw [key, List.nil_append, ok_bind, joinComma_eq]
  simp

theorem reverse_listing {a doc r : Bytes} {vs : List Bytes} (hp : Parsed doc (c! '[' :: r)) (hl : Listing r vs) :
    modApply get b!"reverse" doc a = .ok (arrayText vs.reverse) := by
  have e : modApply get b!"reverse" doc a = modReverse doc := rfl
  obtain ⟨v, h1, h2, h3, _, _, _, h4⟩ := parsed_value hp
  have hk : v.kind = .array := h4 (by simp)
  obtain ⟨vals, h5, h6⟩ := each_listing h2 hk hl
  rw [e]
  unfold modReverse
  rw [h1]
  simp only [ok_bind, hk, h6]
  have key : ∀ acc : List Bytes, visit (fun (st : List Bytes) (e : Value) => do
        let vindex ← unwrapIndex e
        let s ← slice v.slice vindex (vindex + e.slice.length)
        .ok (st ++ [s], true)) acc vals = .ok (acc ++ vs) := by
    have hs : v.slice = v.json := by rw [h2, h3]
    rw [hs]
    clear * - h5
    induction h5 with
    | nil => intro acc; simp [visit]
    | @cons _ b _ bs hx _ ih =>
      intro acc
      obtain ⟨_, _, i, r, info, _, rfl, hA⟩ := hx
      have e1 : unwrapIndex (mkVal b (some i) info) = .ok i := by unfold unwrapIndex; rw [mkVal_index]
      simp only [visit, e1, ok_bind]
      simp only [mkVal_slice, hA.slice]
      simp only [ok_bind]
      rw [if_pos trivial]
      simpa using ih (acc ++ [b])
  rw [key, List.nil_append, ok_bind, joinComma_eq]
  simp [arrayText]

theorem reverse_other {a doc x : Bytes} (hp : Parsed doc x) (h1 : kindOf x ≠ .object) (h2 : kindOf x ≠ .array) :
    modApply get b!"reverse" doc a = .ok x := by
  have e : modApply get b!"reverse" doc a = modReverse doc := rfl
  obtain ⟨v, g1, _, g3, _, g4, g5, _⟩ := parsed_value hp
  rw [e]
  unfold modReverse
  rw [g1]
  simp only [ok_bind]
  rw [g3]
  cases hv : v.kind <;> simp_all

/-! ### `@flatten` -/

theorem unwrap_readable {v : Bytes} (h : Readable v) (hk : kindOf v = .object ∨ kindOf v = .array) : unwrap v = inside v := by
  obtain ⟨s, r, h⟩ := h
  cases h with
  | group hg hh =>
    obtain ⟨o, b, c, _, hc, _, rfl⟩ := hg
    have := hh o rfl
    simp only [List.mem_cons, List.not_mem_nil, or_false] at this hc
    rw [unwrap_bracket b this.symm (by rcases hc with rfl | rfl | rfl <;> decide)]
    simp [inside]
  | string => rw [kindOf_quote] at hk; simp at hk
  | number hd =>
    unfold IsDigit at hd
    unfold kindOf at hk
    split at hk
    · simp at hk
    · rename_i h; cases h; grind
  | four hd =>
    simp only [List.mem_cons, List.not_mem_nil, or_false] at hd
    rcases hd with rfl | rfl <;> simp [kindOf] at hk
  | five => simp [kindOf] at hk

theorem textAt_kind {json : Bytes} {x : Value} {v : Bytes} (h : TextAt json x v) : x.kind = kindOf v := h.1.2.1
theorem textAt_json {json : Bytes} {x : Value} {v : Bytes} (h : TextAt json x v) : x.json = v := h.1.1
theorem textAt_slice {json : Bytes} {x : Value} {v : Bytes} (h : TextAt json x v) : x.slice = v := by
  obtain ⟨_, _, i, r, info, _, rfl, _⟩ := h; simp
theorem textAt_lt {json : Bytes} {x : Value} {v : Bytes} (h : TextAt json x v) : v.length < json.length := by
  obtain ⟨_, _, i, r, info, hi, _, hA⟩ := h
  have := hA.len
  rw [List.length_append] at this
  omega

theorem flatten_runs {rec : GetFn} {n : Nat} {doc arg r : Bytes} {vs : List Bytes} (hp : Parsed doc (c! '[' :: r)) (hl : Listing r vs) {d : Value} {deep : Bool}
    (hd : rec arg b!"deep" = .ok d) (hb : d.bool = .ok deep) :
    ∃ json vals, json.length ≤ doc.length ∧ Aligned (TextAt json) vals vs ∧ modFlattenN rec (n + 1) doc arg =
      (visit (flatStep deep fun j => modFlattenN rec n j arg) ([c! '['], 0) vals >>= fun st => .ok (st.1 ++ [c! ']'])) := by
  obtain ⟨v, h1, h2, h3, h7, _, _, h4⟩ := parsed_value hp
  have hk : v.kind = .array := h4 (by simp)
  obtain ⟨vals, h5, h6⟩ := each_listing h2 hk hl
  refine ⟨v.json, vals, h7, h5, ?_⟩
  rw (occs := .pos [1]) [modFlattenN.eq_2]
  rw [h1]
  simp only [ok_bind, hd, hb, h6]
  rw [if_neg (by rw [hk]; decide)]
  congr 1
  congr 1
  funext st e
  simp only [flatPush_if]
  unfold flatStep flatRaw
  split
  · split
    · show _ = (modFlattenN rec n e.json arg >>= fun x => .ok (unwrap x)) >>= fun raw => .ok (flatPush raw st, true)
      cases modFlattenN rec n e.json arg <;> rfl
    · rfl
  · rfl

theorem flatten_met {json : Bytes} {inner : Bytes → Res Bytes} : ∀ {vs : List Bytes} {vals : List Value}, Aligned (TextAt json) vals vs →
    ∀ {ps : List Bytes} {st : Bytes × Nat}, PieceState (c! '[') ps st →
    ∃ st', visit (flatStep false inner) st vals = .ok st' ∧ PieceState (c! '[') (ps ++ flatPieces vs) st'
  | [], vals, h, ps, st, hst => by
    cases h
    exact ⟨st, rfl, by simpa [flatPieces] using hst⟩
  | v :: vs, vals, h, ps, st, hst => by
    cases h with
    | @cons x _ _ _ hx hr =>
      have e1 : flatStep false inner st x = .ok (flatPush (if kindOf v = .array then inside v else v) st, true) := by
        refine flatStep_push ?_ st
        unfold flatRaw
        rw [textAt_kind hx]
        split
        · rename_i hk
          rw [if_neg (by decide), textAt_json hx, unwrap_readable hx.2.1 (.inr hk)]
        · rw [textAt_slice hx]
      have hst' : PieceState (c! '[') (ps ++ flatPieces [v]) (flatPush (if kindOf v = .array then inside v else v) st) := by
        unfold flatPush
        generalize hp : (if kindOf v = .array then inside v else v) = p
        cases p with
        | nil => simpa [flatPieces, hp] using hst
        | cons c p =>
          rw [if_pos (by simp)]
          have := hst.push (c :: p)
          simpa [flatPieces, hp] using this
      obtain ⟨st', h1, h2⟩ := flatten_met hr hst'
      refine ⟨st', ?_, ?_⟩
      · simp only [visit, e1]; rw [if_pos trivial]; exact h1
      · have : flatPieces (v :: vs) = flatPieces [v] ++ flatPieces vs := by
          unfold flatPieces
          rw [List.map_cons, ← List.filter_append]; rfl
        rw [this, ← List.append_assoc]
        exact h2

theorem flatten_listing {a doc r : Bytes} {vs : List Bytes} (hp : Parsed doc (c! '[' :: r)) (hl : Listing r vs) {d : Value}
    (hd : get a b!"deep" = .ok d) (hb : d.bool = .ok false) : modApply get b!"flatten" doc a = .ok (arrayText (flatPieces vs)) := by
  have e : modApply get b!"flatten" doc a = modFlattenN get (doc.length + 1) doc a := rfl
  obtain ⟨json, vals, _, h1, h2⟩ := flatten_runs (n := doc.length) hp hl hd hb
  obtain ⟨st', h3, h4⟩ := flatten_met (inner := fun j => modFlattenN get doc.length j a) h1 (ps := []) (st := ([c! '['], 0)) ⟨rfl, by simp⟩
  rw [e, h2, h3]
  simp only [ok_bind]
  rw [h4.1, List.nil_append]
  simp [arrayText]

theorem commaSep_append : ∀ {ps qs : List Bytes}, ps ≠ [] → qs ≠ [] → commaSep (ps ++ qs) = commaSep ps ++ c! ',' :: commaSep qs
  | [], _, h, _ => absurd rfl h
  | [p], q :: qs, _, _ => by simp [commaSep]
  | [p], [], _, h => absurd rfl h
  | p :: p' :: ps, qs, _, h => by
    have := commaSep_append (ps := p' :: ps) (by simp) h
    simp only [List.cons_append, commaSep] at this ⊢
    rw [this]; simp

theorem PieceState.pushAll {o : UInt8} {ps qs : List Bytes} {st : Bytes × Nat} (h : PieceState o ps st) (hq : ∀ q ∈ qs, q ≠ []) :
    PieceState o (ps ++ qs) (flatPush (commaSep qs) st) := by
  unfold flatPush
  cases qs with
  | nil => simpa [commaSep] using h
  | cons q qs =>
    have hne : commaSep (q :: qs) ≠ [] := by
      have := hq q (by simp)
      cases qs <;> simp [commaSep, this]
    rw [if_pos (List.length_pos_iff.2 hne)]
    refine ⟨?_, by simp⟩
    by_cases he : ps = []
    · subst he
      have : ¬ st.2 > 0 := fun h' => h.2.1 h' rfl
      simp only [if_neg this, h.1]
      simp [commaSep]
    · simp only [if_pos (h.2.2 he), h.1]
      rw [commaSep_append he (by simp)]
      simp

theorem sunk_readable {vs ls : List Bytes} (h : Sunk vs ls) : (∀ v ∈ vs, Readable v) → ∀ l ∈ ls, Readable l := by
  induction h with
  | nil => intro _; simp
  | keep _ _ ih =>
    intro hv
    exact List.forall_mem_cons.2 ⟨hv _ (by simp), ih fun x hx => hv x (List.mem_cons_of_mem _ hx)⟩
  | splice hl _ _ ih1 ih2 =>
    intro hv l hm
    rcases List.mem_append.1 hm with hm | hm
    · exact ih1 (listing_readable hl) l hm
    · exact ih2 (fun x hx => hv x (List.mem_cons_of_mem _ hx)) l hm

theorem flatten_sunk {json : Bytes} {inner : Bytes → Res Bytes} {N : Nat} (hl : json.length ≤ N)
    (hin : ∀ r ws ls, r.length + 1 < N → Listing r ws → Sunk ws ls → inner (c! '[' :: r) = .ok (arrayText ls)) :
    ∀ {vs ls : List Bytes}, Sunk vs ls → ∀ {vals : List Value}, Aligned (TextAt json) vals vs → ∀ {es : List Bytes} {st : Bytes × Nat},
    PieceState (c! '[') es st → ∃ st', visit (flatStep true inner) st vals = .ok st' ∧ PieceState (c! '[') (es ++ ls) st' := by
  intro vs ls hf
  induction hf with
  | nil =>
    intro vals h es st hst
    cases h
    exact ⟨st, rfl, by simpa using hst⟩
  | @keep v r s hk _ ih =>
    intro vals h es st hst
    cases h with
    | @cons x _ _ _ hx hr =>
      have e1 := flatStep_push (deep := true) (inner := inner) (value := x) (raw := v)
        (by rw [flatRaw, if_neg (by rw [textAt_kind hx]; exact hk), textAt_slice hx]) st
      have hst' := hst.pushAll (qs := [v]) (by simpa using readable_ne hx.2.1)
      obtain ⟨st', h1, h2⟩ := ih hr hst'
      refine ⟨st', ?_, by simpa using h2⟩
      simp only [visit, e1]; rw [if_pos trivial]; exact h1
  | @splice r ws ks vs ls hlist hd _ _ ih =>
    intro vals h es st hst
    cases h with
    | @cons x _ _ _ hx hr =>
      have hlen := textAt_lt hx
      have g1 := hin r ws ks (by simp at hlen; omega) hlist hd
      have e1 := flatStep_push (deep := true) (inner := inner) (value := x) (raw := commaSep ks)
        (by rw [flatRaw, if_pos (by rw [textAt_kind hx]; rfl), if_pos rfl, textAt_json hx, g1]
            simp only [ok_bind]
            exact congrArg Except.ok (unwrap_bracket _ (.inl rfl) (by decide))) st
      have hst' := hst.pushAll (qs := ks) fun q hq => readable_ne (sunk_readable hd (listing_readable hlist) q hq)
      obtain ⟨st', h1, h2⟩ := ih hr hst'
      refine ⟨st', ?_, by simpa using h2⟩
      simp only [visit, e1]; rw [if_pos trivial]; exact h1

theorem flattenN_sunk {arg : Bytes} {d : Value} (hd : get arg b!"deep" = .ok d) (hb : d.bool = .ok true) :
    ∀ (n : Nat) {doc r : Bytes} {vs ls : List Bytes}, doc.length < n → Parsed doc (c! '[' :: r) → Listing r vs → Sunk vs ls →
    modFlattenN get n doc arg = .ok (arrayText ls)
  | 0, _, _, _, _, h, _, _, _ => by omega
  | n + 1, doc, r, vs, ls, hlt, hp, hl, hf => by
    obtain ⟨json, vals, h0, h1, h2⟩ := flatten_runs (n := n) hp hl hd hb
    obtain ⟨st', h3, h4⟩ := flatten_sunk (inner := fun j => modFlattenN get n j arg) (N := doc.length) h0
      (fun r' ws ls' hlt' hl' hf' => flattenN_sunk hd hb n (by simp; omega) (.cont (w := []) (by intro c hc; cases hc) ⟨_, rfl, by decide⟩) hl' hf')
      hf h1 (es := []) (st := ([c! '['], 0)) ⟨rfl, by simp⟩
    rw [h2, h3]
    simp only [ok_bind]
    rw [h4.1, List.nil_append]
    simp [arrayText]

theorem other_doc {n a doc x : Bytes} (hn : n = b!"flatten" ∨ n = b!"join") (hp : Parsed doc x) (hk : kindOf x ≠ .array) :
    modApply get n doc a = .ok doc := by
  obtain ⟨v, g1, _, _, _, _, g5, _⟩ := parsed_value hp
  have h2 : v.kind ≠ .array := fun h => hk (g5 h)
  rcases hn with rfl | rfl
  · have e : modApply get b!"flatten" doc a = modFlattenN get (doc.length + 1) doc a := rfl
    rw [e, modFlattenN, g1]
    simp only [ok_bind]
    rw [if_pos h2]
  · have e : modApply get b!"join" doc a = modJoin get doc a := rfl
    rw [e, modJoin, g1]
    simp only [ok_bind]
    rw [if_pos h2]

/-! ### `@join` -/

theorem keep_met {json : Bytes} : ∀ {vs : List Bytes} {vals : List Value}, Aligned (TextAt json) vals vs →
    ∀ {ps : List Bytes} {st : Bytes × Nat}, PieceState (c! '{') ps st →
    ∃ st', visit keepStep st vals = .ok st' ∧ PieceState (c! '{') (ps ++ keptPieces vs) st'
  | [], vals, h, ps, st, hst => by
    cases h
    exact ⟨st, rfl, by simpa [keptPieces] using hst⟩
  | v :: vs, vals, h, ps, st, hst => by
    cases h with
    | @cons x _ _ _ hx hr =>
      by_cases hk : kindOf v = .object
      · have e1 : keepStep st x = .ok (((if st.2 > 0 then st.1 ++ [c! ','] else st.1) ++ inside v, st.2 + 1), true) := by
          unfold keepStep
          rw [textAt_kind hx, if_neg (by simp [hk]), textAt_slice hx, unwrap_readable hx.2.1 (.inl hk)]
        obtain ⟨st', h1, h2⟩ := keep_met hr (hst.push (inside v))
        refine ⟨st', ?_, ?_⟩
        · simp only [visit, e1]; rw [if_pos trivial]; exact h1
        · have : keptPieces (v :: vs) = [inside v] ++ keptPieces vs := by simp [keptPieces, hk]
          rw [this, ← List.append_assoc]
          exact h2
      · have e1 : keepStep st x = .ok (st, true) := by
          unfold keepStep
          rw [if_pos (by rw [textAt_kind hx]; exact hk)]
        obtain ⟨st', h1, h2⟩ := keep_met hr hst
        refine ⟨st', ?_, ?_⟩
        · simp only [visit, e1]; rw [if_pos trivial]; exact h1
        · have : keptPieces (v :: vs) = keptPieces vs := by simp [keptPieces, hk]
          rw [this]
          exact h2

theorem join_keep {doc a r : Bytes} {vs : List Bytes} (hp : Parsed doc (c! '[' :: r)) (hl : Listing r vs) {p : Value}
    (hp1 : get a b!"preserve" = .ok p) (hp2 : p.bool = .ok true) :
    modApply get b!"join" doc a = .ok (c! '{' :: (commaSep (keptPieces vs) ++ b!"}")) := by
  have e : modApply get b!"join" doc a = modJoin get doc a := rfl
  obtain ⟨v, h1, h2, h3, _, _, _, h4⟩ := parsed_value hp
  have hk : v.kind = .array := h4 (by simp)
  obtain ⟨vals, h5, h6⟩ := each_listing h2 hk hl
  obtain ⟨st', g1, g2⟩ := keep_met h5 (ps := []) (st := ([c! '{'], 0)) ⟨rfl, by simp⟩
  rw [e]
  unfold modJoin
  rw [h1]
  simp only [ok_bind]
  rw [if_neg (by rw [hk]; decide)]
  simp only [hp1, hp2, ok_bind, h6]
  rw [if_pos trivial]
  have e : visit (fun (st : Bytes × Nat) (value : Value) =>
      if value.kind ≠ .object then .ok (st, true)
      else .ok (((if st.2 > 0 then st.1 ++ [c! ','] else st.1) ++ unwrap value.slice, st.2 + 1), true)) ([c! '{'], 0) vals = .ok st' := g1
  rw [e]
  simp only [ok_bind]
  rw [g2.1, List.nil_append]
  simp

theorem readable_parse {k : Bytes} (h : Readable k) : ∃ w, parse k = .ok w ∧ w.json = k ∧ w.exists = true := by
  obtain ⟨v, _, ⟨h3, h4, w, h5, h6⟩, _⟩ := readable_same h
  have hj : w.json = k := h6.json.symm.trans h3
  exact ⟨w, h5, hj, exists_json.2 (by rw [hj]; exact readable_ne h)⟩

theorem readable_str {k : Bytes} (h : Readable k) : ∃ s, StrOf k s := by
  obtain ⟨w, h1, h2, h3⟩ := readable_parse h
  obtain ⟨s, _, h4⟩ := (Handed.reads (.parse h1) h3).1
  exact ⟨s, by rwa [h2] at h4⟩

theorem textAt_str {json : Bytes} {x : Value} {k s : Bytes} (h : TextAt json x k) (hs : StrOf k s) : x.str = .ok s := by
  obtain ⟨h3, _, w, h5, h6⟩ := h.1
  have hj : w.json = k := h6.json.symm.trans h3
  rw [h6.str]
  obtain ⟨s', g1, g2⟩ := (Handed.reads (.parse h5) (exists_json.2 (by rw [hj]; exact readable_ne h.2.1))).1
  rw [hj] at g2
  rw [g1, strOf_one hs g2]

theorem join_twos {json : Bytes} {dec : Bytes → Bytes} {ms : List (Bytes × Bytes)} {pairs : List (Value × Value)}
    (h : Aligned (fun p m => TextAt json p.1 m.1 ∧ TextAt json p.2 m.2) pairs ms) (hd : ∀ m ∈ ms, StrOf m.1 (dec m.1)) : ∀ acc : List (Bytes × Bytes),
    visit (fun st p => joinPut st p.1 p.2) (joinState dec acc) pairs = .ok (joinState dec (ms.foldl (fun acc m => putMember dec m acc) acc)) := by
  induction h with
  | nil => intro acc; rfl
  | @cons p m ps ms hx _ ih =>
    intro acc
    have e1 : joinPut (joinState dec acc) p.1 p.2 = .ok (joinState dec (putMember dec (m.1, m.2) acc), true) := by
      unfold joinPut
      rw [textAt_str hx.1 (hd m (by simp))]
      simp only [ok_bind, textAt_json hx.1, textAt_json hx.2]
      rw [← join_put]
    simp only [visit, e1, List.foldl_cons]
    rw [if_pos trivial]
    exact ih (fun x hx => hd x (List.mem_cons_of_mem _ hx)) _

theorem join_entries {json : Bytes} {dec : Bytes → Bytes} {vs : List Bytes} {ms : List (Bytes × Bytes)} (ho : Entries vs ms) :
    ∀ {vals : List Value}, Aligned (TextAt json) vals vs → (∀ m ∈ ms, StrOf m.1 (dec m.1)) → ∀ acc : List (Bytes × Bytes),
    visit joinStep (joinState dec acc) vals = .ok (joinState dec (ms.foldl (fun acc m => putMember dec m acc) acc)) := by
  induction ho with
  | nil => intro vals h _ acc; cases h; rfl
  | @skip v r s hk _ ih =>
    intro vals h hd acc
    cases h with
    | @cons x _ _ _ hx hr =>
      have e1 : joinStep (joinState dec acc) x = .ok (joinState dec acc, true) := by
        unfold joinStep
        rw [if_pos (by rw [textAt_kind hx]; exact hk)]
      simp only [visit, e1]
      rw [if_pos trivial]
      exact ih hr hd acc
  | @take r ws vs ms hl _ ih =>
    intro vals h hd acc
    cases h with
    | @cons x _ _ _ hx hr =>
      have hk : x.kind = .object := textAt_kind hx
      have hA := At.zero (c! '{' :: r)
      have h1 := pairUp_twos (listing_at hl 1 (by omega) hA.cons)
      have e1 : joinStep (joinState dec acc) x = .ok (joinState dec ((twos ws).foldl (fun acc m => putMember dec m acc) acc), true) := by
        unfold joinStep
        rw [if_neg (by rw [hk]; simp), each_twos (textAt_json hx) hk, join_twos h1 fun m hm => hd m (List.mem_append_left _ hm)]
        rfl
      simp only [visit, e1]
      rw [if_pos trivial, List.foldl_append]
      exact ih hr (fun x hx => hd x (List.mem_append_right _ hx)) _

theorem join_merged {doc a r : Bytes} {vs : List Bytes} {ms : List (Bytes × Bytes)} {dec : Bytes → Bytes} (hp : Parsed doc (c! '[' :: r))
    (hl : Listing r vs) (ho : Entries vs ms) (hd : ∀ m ∈ ms, StrOf m.1 (dec m.1)) {p : Value}
    (hp1 : get a b!"preserve" = .ok p) (hp2 : p.bool = .ok false) :
    modApply get b!"join" doc a = .ok (objectText (mergeMembers dec ms)) := by
  have e : modApply get b!"join" doc a = modJoin get doc a := rfl
  obtain ⟨v, h1, h2, h3, _, _, _, h4⟩ := parsed_value hp
  have hk : v.kind = .array := h4 (by simp)
  obtain ⟨vals, h5, h6⟩ := each_listing h2 hk hl
  have hrun := join_entries ho h5 hd []
  have hm := joinMembers_eq dec (mergeMembers_nodup dec ms)
  rw [e]
  unfold modJoin
  rw [h1]
  simp only [ok_bind]
  rw [if_neg (by rw [hk]; decide)]
  simp only [hp1, hp2, ok_bind, h6]
  rw [if_neg (by decide)]
  have e : visit (fun (st : List (Bytes × Bytes) × List (Bytes × Bytes)) (value : Value) =>
        if value.kind ≠ .object then .ok (st, true)
        else do
          let st ← value.each
            (fun (st : List (Bytes × Bytes) × List (Bytes × Bytes)) key value => do
              let k ← key.str
              let keys := if (mapGet k st.2).isNone then st.1 ++ [(key.json, k)] else st.1
              .ok ((keys, mapInsert k value.json st.2), true)) st
          .ok (st, true)) ([], []) vals = .ok (joinState dec (mergeMembers dec ms)) := hrun
  rw [e]
  simp only [ok_bind]
  rw [hm]
  simp [joinComma_eq, objectText]

/-! ### Options -/

/-- A key that is an option. -/
structure OptionKey (k : Bytes) : Prop where
  cut : CutUp k ⟨k, false, false, 0, 0, []⟩
  plain : ∀ c ∈ k.head?, c ≠ c! '#'
  dots : ¬ b!".." <+: k
  names : ¬ Computes k

theorem option_deep : OptionKey b!"deep" :=
  ⟨(C64_exact b!"deep" ⟨b!"deep", false, false, 0, 0, []⟩).1 (by decide +kernel), by decide, by decide, by unfold Computes; decide⟩
theorem option_preserve : OptionKey b!"preserve" :=
  ⟨(C64_exact b!"preserve" ⟨b!"preserve", false, false, 0, 0, []⟩).1 (by decide +kernel), by decide, by decide, by unfold Computes; decide⟩

theorem boolOf_nil {b : Bool} (h : BoolOf [] b) : b = false :=
  boolOf_one h (.num (n := 0) (by decide) (by decide) (.other (by decide) (by decide) (by decide)))

theorem fits_bool {a k : Bytes} {w : Value} {x : Bytes} (hw : get a k = .ok w) (h : Fits w x) : ∃ b, w.bool = .ok b ∧ BoolOf x b := by
  by_cases hx : x = []
  · subst hx
    exact ⟨false, by rw [(h.2 rfl).bool]; rfl, .num (n := 0) (by decide) (by decide) (.other (by decide) (by decide) (by decide))⟩
  · have he : w.exists = true := exists_json.2 (by rw [h.1]; exact hx)
    obtain ⟨n, h1, h2⟩ := (Handed.reads (.get hw) he).2.1
    obtain ⟨b, h3, h4⟩ := bool_any h1 h2
    rw [h.1] at h4
    exact ⟨b, h3, h4⟩

mutual
theorem hunt_sep {A : Asks} {P : Parts} {s : Bytes} {o : Option Landing} (h : Hunt A P s o) (hs : P.sep = 0) : (landing P o).sep = 0 :=
  match h with
  | .nil => hs
  | .close => hs
  | .skip _ h => hunt_sep h hs
  | .openKey _ => hs
  | .alone _ => hs
  | .pass _ _ _ h => hunt_sep h hs
  | .take _ _ _ _ => hs
  | .broken _ _ _ => hs
  | .into _ _ hg _ => absurd (hs.symm.trans hg.1) (by decide)
  | .again _ _ hg _ _ => absurd (hs.symm.trans hg.1) (by decide)
theorem probe_sep {A : Asks} {P : Parts} {s : Bytes} {o : Option Landing} (h : Probe A P s o) (hs : P.sep = 0) : (landing P o).sep = 0 :=
  match h with
  | .object h => hunt_sep h hs
  | .array _ hp => by
    cases hp with
    | index => exact hs
    | beyond => exact hs
    | count => exact hs
    | map => exact absurd (show (c! '.') = 0 from hs) (by decide)
    | @first q _ _ _ _ _ test hq ht =>
      cases List.find? test _ <;> exact hs
    | all => exact hs
    | allMap => exact absurd (show (c! '.') = 0 from hs) (by decide)
end

theorem option_gives {a k : Bytes} (hk : OptionKey k) {o : Option Landing} (h : Look (asksIn fun _ _ _ => False) a ⟨k, false, false, 0, 0, []⟩ o) :
    Gives (get a k) (landing ⟨k, false, false, 0, 0, []⟩ o).text := by
  refine yields_look (G := fun _ _ _ => False) (fun _ _ _ h => h.elim) hk.dots hk.cut hk.names h ?_
  have : (landing ⟨k, false, false, 0, 0, []⟩ o).sep = 0 := by
    cases h with
    | inside _ hp => exact probe_sep hp rfl
    | nothing => rfl
  rw [this]
  exact .done

theorem chosen_ok {a k : Bytes} {b : Bool} (hk : OptionKey k) (h : Chosen a k b) : ∃ d, get a k = .ok d ∧ d.bool = .ok b := by
  obtain ⟨o, h1, h2⟩ := h
  obtain ⟨w, h3, h4⟩ := option_gives hk h1
  obtain ⟨b', g1, g2⟩ := fits_bool h3 h4
  rw [boolOf_one h2 g2]
  exact ⟨w, h3, g1⟩

theorem chosen_total {k : Bytes} (hk : OptionKey k) (a : Bytes) : ∃ b, Chosen a k b := by
  have hl : ∃ o, Look (asksIn fun _ _ _ => False) a ⟨k, false, false, 0, 0, []⟩ o := by
    obtain ⟨w, t, rfl, hw, ht⟩ := blank_split a
    cases t with
    | nil => exact ⟨_, .nothing hw (by simp)⟩
    | cons c r =>
      by_cases hb : c ∈ b!"{["
      · simp only [List.mem_cons, List.not_mem_nil, or_false] at hb
        rcases hb with rfl | rfl
        · obtain ⟨o, h⟩ := hunt_total (A := asksIn fun _ _ _ => False) (P := ⟨k, false, false, 0, 0, []⟩)
            (fun P' t hg => absurd hg.1 (by show (0 : UInt8) ≠ _; decide)) _ r (Nat.lt_succ_self _)
          exact ⟨o, .inside hw (.object h)⟩
        · obtain ⟨vs, hv⟩ := listing_total _ r (Nat.lt_succ_self _)
          have : ∃ o, Picks (asksIn fun _ _ _ => False) vs ⟨k, false, false, 0, 0, []⟩ o := by
            by_cases hx : ∃ n v, IndexText k n ∧ n < 2 ^ 63 ∧ vs[n]? = some v
            · obtain ⟨n, v, h1, h2, h3⟩ := hx
              exact ⟨_, .index h1 h2 h3⟩
            · refine ⟨none, .beyond hk.plain fun n h1 h2 => ?_⟩
              cases h3 : vs[n]? with
              | none => rfl
              | some v => exact absurd ⟨n, v, h1, h2, h3⟩ hx
          obtain ⟨o, ho⟩ := this
          exact ⟨o, .inside hw (.array hv ho)⟩
      · exact ⟨_, .nothing hw (by intro d hd; cases hd; exact ⟨hb, ht c rfl⟩)⟩
  obtain ⟨o, h⟩ := hl
  obtain ⟨w, h3, h4⟩ := option_gives hk h
  obtain ⟨b, _, g2⟩ := fits_bool h3 h4
  exact ⟨b, o, h, g2⟩

/-! ### All of them -/

theorem turns_ok {n a doc out : Bytes} (h : Turns n a doc out) : modApply get n doc a = .ok out := by
  cases h with
  | this => rfl
  | valid h => exact writes_valid h
  | invalid h => exact writes_invalid h
  | unknown h => exact writes_unknown h
  | ugly h =>
    have e : modApply get b!"ugly" doc a = ugly doc := rfl
    rw [e, ugly_eq, pressed_ok h]
  | reverseArray hp hl => exact reverse_listing hp hl
  | reverseObject hp hs => exact reverse_spans hp hs
  | reverseOther hp h1 h2 => exact reverse_other hp h1 h2
  | flatten hp hl ho =>
    obtain ⟨d, h1, h2⟩ := chosen_ok option_deep ho
    exact flatten_listing hp hl h1 h2
  | flattenDeep hp hl ho hs =>
    obtain ⟨d, h1, h2⟩ := chosen_ok option_deep ho
    exact flattenN_sunk h1 h2 _ (Nat.lt_succ_self _) hp hl hs
  | join hp hl ho he hd =>
    obtain ⟨d, h1, h2⟩ := chosen_ok option_preserve ho
    exact join_merged hp hl he hd h1 h2
  | joinKeep hp hl ho =>
    obtain ⟨d, h1, h2⟩ := chosen_ok option_preserve ho
    exact join_keep hp hl h1 h2
  | noArray hn hp hk => exact other_doc hn hp hk
  | pretty h => exact writes_ok h

/-! ### They make something of every text -/

theorem seps_front : ∀ (n : Nat) (s : Bytes), s.length < n → (∃ w v r, s = w ++ (v ++ r) ∧ Seps w ∧ ValueAt (v ++ r) v r) ∨ Listing s [] := by
  intro n
  induction n with
  | zero => intro s h; omega
  | succ n ih =>
    intro s hl
    cases s with
    | nil => exact .inr .nil
    | cons c r =>
      by_cases h1 : c ≤ 0x20 ∨ c ∈ b!",:"
      · rcases ih r (by simp at hl; omega) with ⟨w, v, q, rfl, hw, hv⟩ | h
        · refine .inl ⟨c :: w, v, q, rfl, ?_, hv⟩
          intro x hx
          rcases List.mem_cons.1 hx with rfl | hx
          · exact h1
          · exact hw x hx
        · exact .inr (.skip h1 h)
      by_cases h2 : c ∈ b!"]}"
      · exact .inr (.close h2)
      rcases leaf_cases (c :: r) with ⟨v, q, hv⟩ | ⟨hn, _⟩
      · have e := valueAt_append hv
        rw [e] at hv ⊢
        exact .inl ⟨[], v, q, rfl, (by intro x hx; cases hx), hv⟩
      · refine .inr (.broken ?_ ?_ hn)
        · rw [not_or] at h1; grind
        · simp only [List.mem_cons, List.not_mem_nil, or_false, not_or] at h1 h2 ⊢; grind

theorem listing_seps {w s : Bytes} {vs : List Bytes} (hw : Seps w) (h : Listing s vs) : Listing (w ++ s) vs := by
  induction w with
  | nil => exact h
  | cons c w ih => exact .skip (hw c (by simp)) (ih fun x hx => hw x (by simp [hx]))

theorem spans_total : ∀ (n : Nat) (s : Bytes), s.length < n → ∃ ps, Spans s ps := by
  intro n
  induction n with
  | zero => intro s h; omega
  | succ n ih =>
    intro s hl
    rcases seps_front _ s (Nat.lt_succ_self _) with ⟨w, k, q, rfl, hw, hk⟩ | h
    · rcases seps_front _ q (Nat.lt_succ_self _) with ⟨m, v, r, rfl, hm, hv⟩ | h
      · have h1 := valueAt_ne hk
        have h2 : 0 < k.length := List.length_pos_iff.2 h1
        obtain ⟨ps, h⟩ := ih r (by simp at hl; omega)
        exact ⟨_, .pair hw hk hm hv h⟩
      · exact ⟨[], .rest (listing_seps hw (.value hk h)) (by simp)⟩
    · exact ⟨[], .rest h (by simp)⟩

theorem listing_le {s : Bytes} {vs : List Bytes} (h : Listing s vs) : ∀ v ∈ vs, v.length ≤ s.length := by
  induction h with
  | nil => simp
  | skip _ _ ih => intro v hv; have := ih v hv; simp; omega
  | close => simp
  | value hv _ ih =>
    intro x hx
    have := congrArg List.length (valueAt_append hv)
    rw [List.length_append] at this
    rcases List.mem_cons.1 hx with rfl | hx
    · omega
    · have := ih x hx; omega
  | broken => simp

theorem kindOf_array {v : Bytes} (h : kindOf v = .array) : ∃ r, v = c! '[' :: r := by
  cases v with
  | nil => simp [kindOf] at h
  | cons c r =>
    unfold kindOf at h
    simp only at h
    repeat (split at h; · simp_all)
    simp_all

theorem kindOf_object {v : Bytes} (h : kindOf v = .object) : ∃ r, v = c! '{' :: r := by
  cases v with
  | nil => simp [kindOf] at h
  | cons c r =>
    unfold kindOf at h
    simp only at h
    repeat (split at h; · simp_all)
    simp_all

theorem sunk_total : ∀ (n : Nat) (vs : List Bytes), (∀ v ∈ vs, v.length < n) → ∃ ls, Sunk vs ls := by
  intro n
  induction n with
  | zero =>
    intro vs h
    cases vs with
    | nil => exact ⟨_, .nil⟩
    | cons v vs => exact absurd (h v (by simp)) (by omega)
  | succ n ih =>
    intro vs
    induction vs with
    | nil => intro _; exact ⟨_, .nil⟩
    | cons v vs ih2 =>
      intro h
      obtain ⟨ls, h1⟩ := ih2 fun x hx => h x (List.mem_cons_of_mem _ hx)
      by_cases hk : kindOf v = .array
      · obtain ⟨r, rfl⟩ := kindOf_array hk
        obtain ⟨ws, hl⟩ := listing_total _ r (Nat.lt_succ_self _)
        have hv := h _ (by simp : (c! '[' :: r) ∈ (c! '[' :: r) :: vs)
        obtain ⟨ks, h2⟩ := ih ws fun x hx => by have := listing_le hl x hx; simp at hv; omega
        exact ⟨_, .splice hl h2 h1⟩
      · exact ⟨_, .keep hk h1⟩

theorem twos_readable : ∀ {ws : List Bytes}, (∀ w ∈ ws, Readable w) → ∀ m ∈ twos ws, Readable m.1
  | [], _, _, h => by simp [twos] at h
  | [_], _, _, h => by simp [twos] at h
  | a :: b :: r, hw, m, h => by
    rw [twos, List.mem_cons] at h
    rcases h with rfl | h
    · exact hw a (by simp)
    · exact twos_readable (fun w hm => hw w (by simp [hm])) m h

theorem entries_total : ∀ vs : List Bytes, ∃ ms, Entries vs ms ∧ ∀ m ∈ ms, Readable m.1
  | [] => ⟨_, .nil, by simp⟩
  | v :: vs => by
    obtain ⟨ms, h1, h2⟩ := entries_total vs
    by_cases hk : kindOf v = .object
    · obtain ⟨r, rfl⟩ := kindOf_object hk
      obtain ⟨ws, hl⟩ := listing_total _ r (Nat.lt_succ_self _)
      refine ⟨_, .take hl h1, fun m hm => ?_⟩
      rcases List.mem_append.1 hm with hm | hm
      · exact twos_readable (listing_readable hl) m hm
      · exact h2 m hm
    · exact ⟨_, .skip hk h1, h2⟩

/-- Every modifier but `@pretty` makes something of every text. -/
theorem turns_always {n : Bytes} (hn : n ≠ b!"pretty") (a doc : Bytes) : ∃ out, Turns n a doc out ∧ (Fair doc → Fair out) := by
  obtain ⟨x, hx⟩ := parsed_total doc
  by_cases h1 : n = b!"this"
  · subst h1; exact ⟨doc, .this, id⟩
  by_cases h2 : n = b!"valid"
  · subst h2
    by_cases hj : JsonText doc
    · exact ⟨doc, .valid hj, id⟩
    · exact ⟨[], .invalid hj, fun _ => fair_nil⟩
  by_cases h3 : n = b!"ugly"
  · subst h3
    obtain ⟨o, h⟩ := pressed_total _ doc (Nat.lt_succ_self _)
    exact ⟨o, .ugly h, fun hd => pressed_fair h hd⟩
  by_cases h4 : n = b!"reverse"
  · subst h4
    by_cases ka : kindOf x = .array
    · obtain ⟨r, rfl⟩ := kindOf_array ka
      obtain ⟨vs, hl⟩ := listing_total _ r (Nat.lt_succ_self _)
      exact ⟨_, .reverseArray hx hl, fun _ => fair_cont (by decide)⟩
    by_cases ko : kindOf x = .object
    · obtain ⟨r, rfl⟩ := kindOf_object ko
      obtain ⟨ps, hs⟩ := spans_total _ r (Nat.lt_succ_self _)
      exact ⟨_, .reverseObject hx hs, fun _ => fair_cont (by decide)⟩
    · exact ⟨_, .reverseOther hx ko ka, fun _ => fair_parsed hx⟩
  by_cases h5 : n = b!"flatten"
  · subst h5
    by_cases ka : kindOf x = .array
    · obtain ⟨r, rfl⟩ := kindOf_array ka
      obtain ⟨vs, hl⟩ := listing_total _ r (Nat.lt_succ_self _)
      obtain ⟨b, hb⟩ := chosen_total option_deep a
      cases b with
      | false => exact ⟨_, .flatten hx hl hb, fun _ => fair_cont (by decide)⟩
      | true =>
        obtain ⟨ls, hs⟩ := sunk_total (r.length + 1) vs fun v hv => by have := listing_le hl v hv; omega
        exact ⟨_, .flattenDeep hx hl hb hs, fun _ => fair_cont (by decide)⟩
    · exact ⟨_, .noArray (.inl rfl) hx ka, id⟩
  by_cases h6 : n = b!"join"
  · subst h6
    by_cases ka : kindOf x = .array
    · obtain ⟨r, rfl⟩ := kindOf_array ka
      obtain ⟨vs, hl⟩ := listing_total _ r (Nat.lt_succ_self _)
      obtain ⟨b, hb⟩ := chosen_total option_preserve a
      cases b with
      | true => exact ⟨_, .joinKeep hx hl hb, fun _ => fair_cont (by decide)⟩
      | false =>
        obtain ⟨ms, he, hr⟩ := entries_total vs
        have := fun m hm => readable_str (hr m hm)
        classical
        refine ⟨_, .join (dec := fun k => if h : ∃ s, StrOf k s then h.choose else []) hx hl hb he fun m hm => ?_, fun _ => fair_cont (by decide)⟩
        have h := this m hm
        rw [dif_pos h]
        exact h.choose_spec
    · exact ⟨_, .noArray (.inr rfl) hx ka, id⟩
  · refine ⟨[], .unknown ?_, fun _ => fair_nil⟩
    unfold modNames
    simp only [List.mem_cons, List.not_mem_nil, or_false, not_or]
    exact ⟨h1, h2, h4, h3, hn, h5, h6⟩

theorem turns_total {n : Bytes} (hn : n ≠ b!"pretty") (a : Bytes) {doc : Bytes} (hd : Fair doc) : ∃ out, Turns n a doc out ∧ Fair out := by
  obtain ⟨out, h1, h2⟩ := turns_always hn a doc
  exact ⟨out, h1, h2 hd⟩

end Gjson
