import Verif.Props.OwnText
import Verif.Props.Search
import Verif.Props.Enumerate
import Verif.Props.Listed
import Verif.Lemmas.Peer
import Verif.Lemmas.Miss
import Verif.Props.Prefix
import Verif.Props.Lead
import Verif.Lemmas.Open
/-
C63: an object is the list of pairs that `each` hands out. The values are those a caller
can hold (`Handed`, C12) whose text is JSON.
-/
namespace Gjson
open Spec

/-- The pairs `each` hands out. -/
def Value.pairs (v : Value) : Res (List (Value × Value)) := v.each (fun acc k x => .ok (acc ++ [(k, x)], true)) []

theorem exists_cont {v : Value} (h : Handed v) (hk : v.kind = .object ∨ v.kind = .array) : v.exists = true := by
  cases e : v.exists with
  | true => rfl
  | false => rcases C62_missing h e with h1 | h1 <;> rcases hk with hk | hk <;> rw [hk] at h1 <;> cases h1

/-- The text of a value that is JSON: whitespace can only follow. -/
theorem value_text {v : Value} (h : Handed v) (he : v.exists = true) (hv : valid v.json = .ok true) :
    ∃ t w, v.json = t ++ w ∧ Ws w ∧ IsValue t ∧ kindOf t = v.kind := by
  obtain ⟨w1, t, w2, e, hw1, hw2, ht⟩ := (C01_valid_iff_rfc8259 _).1 hv
  obtain ⟨c, r, e2, hc⟩ := C62_first h he
  have hw : w1 = [] := by
    cases w1 with
    | nil => rfl
    | cons d w1 =>
      rw [e2, List.cons_append] at e
      obtain ⟨rfl, _⟩ := List.cons.inj e
      have := hw1 c (by simp)
      simp only [List.mem_cons, List.not_mem_nil, or_false] at hc
      simp only [IsWs, IsDigit] at this hc
      rcases this with rfl | rfl | rfl | rfl <;> simp at hc
  subst hw
  rw [List.nil_append] at e
  have hkt : kindOf t = v.kind := by
    rw [C62_kind h he, e]
    obtain ⟨d, q, rfl⟩ := List.exists_cons_of_ne_nil (isValue_ne_nil ht)
    rfl
  exact ⟨t, w2, e, hw2, ht, hkt⟩

theorem pair_key {p : Value × Value} {kv : Bytes × Bytes} (h : SamePair p kv) (s : Bytes) : p.1.str = .ok s ↔ KeyIs kv.1 s := by
  obtain ⟨_, _, w, h1, h2⟩ := h.1
  rw [h2.str]
  exact ⟨fun e => ⟨w, h1, e⟩, fun ⟨w', h3, h4⟩ => by rw [h1] at h3; cases h3; exact h4⟩

theorem aligned_split {α β : Type} {R : α → β → Prop} : ∀ {before : List α} {x : α} {after : List α} {bs : List β},
    Aligned R (before ++ x :: after) bs → ∃ b1 y b2, bs = b1 ++ y :: b2 ∧ Aligned R before b1 ∧ R x y ∧ Aligned R after b2
  | [], _, _, _, h => by cases h with | cons h1 h2 => exact ⟨[], _, _, rfl, .nil, h1, h2⟩
  | a :: before, x, after, _, h => by
    cases h with
    | cons h1 h2 =>
      obtain ⟨b1, y, b2, rfl, h3, h4, h5⟩ := aligned_split h2
      exact ⟨_ :: b1, y, b2, rfl, .cons h1 h3, h4, h5⟩

theorem same_of_text {w x : Value} {t : Bytes} (h1 : SameAsText w t) (h2 : SameAsText x t) : SameValue w x := by
  obtain ⟨_, _, a, e1, s1⟩ := h1
  obtain ⟨_, _, b, e2, s2⟩ := h2
  rw [e1] at e2; cases e2
  exact s1.trans s2.symm

/-- The component `k`, which may have wildcards and escapes, matches the string of the key. -/
def KeyHit (k : Bytes) (key : Value) : Prop := ∃ s, key.str = .ok s ∧ MatchesE (fun c d => c = d ∨ c = c! '?') k s

theorem hits_pair {p : Value × Value} {kv : Bytes × Bytes} (h : SamePair p kv) {k : Bytes} : KeyHit k p.1 ↔ Hits k kv.1 :=
  ⟨fun ⟨s, h1, h2⟩ => ⟨s, (pair_key h s).1 h1, h2⟩, fun ⟨s, h1, h2⟩ => ⟨s, (pair_key h s).2 h1, h2⟩⟩

theorem first_unique {α : Type} {P : α → Prop} : ∀ {b p a b' p' a'}, (b : List α) ++ p :: a = b' ++ p' :: a' → P p → (∀ q ∈ b, ¬ P q) →
    P p' → (∀ q ∈ b', ¬ P q) → b = b' ∧ p = p' ∧ a = a'
  | [], _, _, [], _, _, e, _, _, _, _ => by simpa using e
  | [], p, _, x :: b', _, _, e, hp, _, _, hb' => by simp at e; exact absurd (e.1 ▸ hp) (hb' x (by simp))
  | x :: b, _, _, [], p', _, e, _, hb, hp', _ => by simp at e; exact absurd (e.1 ▸ hp') (hb x (by simp))
  | x :: b, _, _, y :: b', _, _, e, hp, hb, hp', hb' => by
    simp only [List.cons_append, List.cons.injEq] at e
    obtain ⟨rfl, e⟩ := e
    obtain ⟨rfl, h⟩ := first_unique e hp (fun q hq => hb q (by simp [hq])) hp' (fun q hq => hb' q (by simp [hq]))
    exact ⟨rfl, h⟩

section
variable {v : Value} {ps : List (Value × Value)} (h : Handed v) (hk : v.kind = .object) (hv : valid v.json = .ok true) (ha : v.pairs = .ok ps)
include h hk hv ha

theorem pairs_of : ∃ t w kvs, v.json = t ++ w ∧ Padded t v.json ∧ IsObject t kvs ∧ Aligned SamePair ps kvs := by
  obtain ⟨t, w, e, hw, ht, hkt⟩ := value_text h (exists_cont h (.inl hk)) hv
  obtain ⟨kvs, ho⟩ := C28_covers t ht (hkt.trans hk)
  obtain ⟨l, h1, h2⟩ := C28_each_value v t w kvs ho hk e
  have : v.pairs = .ok l := by
    unfold Value.pairs
    rw [h2]
    exact visit_collect_pairs l []
  rw [ha] at this
  cases this
  exact ⟨t, w, kvs, e, ⟨[], w, Ws.nil, hw, by simpa using e⟩, ho, h1⟩

/-- C63: a component, plain or with wildcards and escapes, gives the value of the first
pair whose key matches it, and nothing if there is none. -/
theorem C63_get {k : Bytes} (hs : Selector k) :
    ∃ w, v.get k = .ok w ∧
      (∀ before p after, ps = before ++ p :: after → KeyHit k p.1 → (∀ q ∈ before, ¬ KeyHit k q.1) → w.exists = true ∧ SameValue w p.2) ∧
      ((∀ q ∈ ps, ¬ KeyHit k q.1) → w.exists = false) := by
  obtain ⟨t, w, kvs, e, hd, ho, hal⟩ := pairs_of h hk hv ha
  have hg := C12_value_get h k
  rcases first_split (fun q : Value × Value => KeyHit k q.1) ps with hno | ⟨before, p, after, eps, hp, hb⟩
  rotate_left
  · subst eps
    obtain ⟨b1, y, b2, rfl, h1, h2, h3⟩ := aligned_split hal
    obtain ⟨u, g1, g2, g3, g4⟩ := C16_get_exact ho hd hs (hits_pair h2 |>.1 hp) (fun m hm => by
      obtain ⟨q, hq, hqm⟩ := aligned_right h1 m hm
      exact fun hh => hb q hq ((hits_pair hqm).2 hh))
    rw [g1] at hg
    obtain ⟨x, hx, hsame⟩ := sameRes_ok hg
    refine ⟨x, hx, ?_, fun hno => absurd hp (hno p (by simp))⟩
    intro before' p' after' e' hp' hb'
    obtain ⟨rfl, rfl, rfl⟩ := first_unique e' hp hb hp' hb'
    have hxp : SameValue x p.2 := hsame.trans (same_of_text g4 h2.2)
    refine ⟨?_, hxp⟩
    have := (IsObject.mem_value ho y (by simp)).2
    refine exists_json.2 ?_
    rw [hsame.json, g2]
    exact isValue_ne_nil this
  · obtain ⟨u, g1, g2⟩ := C16_get_missing_exact ho hd hs (fun m hm => by
      obtain ⟨q, hq, hqm⟩ := aligned_right hal m hm
      exact fun hh => hno q hq ((hits_pair hqm).2 hh))
    rw [g1] at hg
    obtain ⟨x, hx, hsame⟩ := sameRes_ok hg
    refine ⟨x, hx, ?_, fun _ => ?_⟩
    · rintro before p after rfl hp _
      exact absurd hp (hno p (by simp))
    · cases ex : x.exists with
      | false => rfl
      | true =>
        have := exists_json.1 ex
        rw [hsame.json] at this
        rw [exists_json.2 this] at g2
        cases g2

/-- C63 for a key: the value of the first pair with that key. Escaping in a path (C17)
leaves a question mark a wildcard, so the key must have none. -/
theorem C63_key {s : Bytes} (hq : c! '?' ∉ s) :
    ∃ w, v.get (escapeKey s) = .ok w ∧
      (∀ before p after, ps = before ++ p :: after → p.1.str = .ok s → (∀ q ∈ before, q.1.str ≠ .ok s) → w.exists = true ∧ SameValue w p.2) ∧
      ((∀ q ∈ ps, q.1.str ≠ .ok s) → w.exists = false) := by
  obtain ⟨t, w, kvs, e, hd, ho, hal⟩ := pairs_of h hk hv ha
  have hg := C12_value_get h (escapeKey s)
  rcases first_split (fun q : Value × Value => q.1.str = .ok s) ps with hno | ⟨before, p, after, eps, hp, hb⟩
  rotate_left
  · subst eps
    obtain ⟨b1, y, b2, rfl, h1, h2, h3⟩ := aligned_split hal
    obtain ⟨u, g1, g2, g3, g4⟩ := C17_escapeKey_partial ho hd hq ((pair_key h2 s).1 hp) (fun m hm => by
      obtain ⟨q, hq, hqm⟩ := aligned_right h1 m hm
      exact fun hh => hb q hq ((pair_key hqm s).2 hh))
    rw [g1] at hg
    obtain ⟨x, hx, hsame⟩ := sameRes_ok hg
    refine ⟨x, hx, ?_, fun hno => absurd hp (hno p (by simp))⟩
    intro before' p' after' e' hp' hb'
    obtain ⟨rfl, rfl, rfl⟩ := first_unique (P := fun q : Value × Value => q.1.str = .ok s) e' hp hb hp' hb'
    refine ⟨exists_json.2 ?_, hsame.trans (same_of_text g4 h2.2)⟩
    rw [hsame.json, g2]
    exact isValue_ne_nil (IsObject.mem_value ho y (by simp)).2
  · obtain ⟨u, g1, g2⟩ := C17_escaped_missing_partial ho hd (escapeKey_as s) (escapeKey_head s) hq (fun m hm => by
      obtain ⟨q, hq, hqm⟩ := aligned_right hal m hm
      exact fun hh => hno q hq ((pair_key hqm s).2 hh))
    rw [g1] at hg
    obtain ⟨x, hx, hsame⟩ := sameRes_ok hg
    refine ⟨x, hx, ?_, fun _ => ?_⟩
    · rintro before p after rfl hp _
      exact absurd hp (hno p (by simp))
    · cases ex : x.exists with
      | false => rfl
      | true =>
        have := exists_json.1 ex
        rw [hsame.json] at this
        rw [exists_json.2 this] at g2
        cases g2

end

/-- `x` is reached from `v` by taking elements of arrays as `array()` returns them and
values of objects as `each()` hands them out, of several with one key the first. The path
has the indexes and the keys, escaped. -/
inductive HandedDown : Value → List Bytes → Value → Prop
  | here {v : Value} : HandedDown v [] v
  | element {v y x : Value} {vs : List Value} {n : Nat} {ks : List Bytes} : v.kind = .array → v.array = .ok vs → vs[n]? = some y → n < 2 ^ 63 →
      HandedDown y ks x → HandedDown v (numeral n :: ks) x
  | member {v x : Value} {p : Value × Value} {before after : List (Value × Value)} {s : Bytes} {ks : List Bytes} : v.kind = .object →
      v.pairs = .ok (before ++ p :: after) → p.1.str = .ok s → (∀ q ∈ before, q.1.str ≠ .ok s) → c! '?' ∉ s →
      HandedDown p.2 ks x → HandedDown v (escapeKey s :: ks) x

theorem escapedAs_text {k p : Bytes} (h : EscapedAs k p) : CompText p := by
  induction h with
  | nil => exact .nil
  | plain hc _ ih => exact .plain (by simp only [pathSpecial, List.mem_cons, List.not_mem_nil, or_false] at hc ⊢; grind) ih
  | esc _ ih => exact .esc ih

theorem escapeKey_selector {s : Bytes} (h : s ≠ []) : Selector (escapeKey s) := by
  refine ⟨escapedAs_text (escapeKey_as s), escapeKey_head s, fun e => ?_⟩
  have := escapeKey_as s
  rw [e] at this
  cases this
  exact h rfl

theorem valid_value {t : Bytes} (h : IsValue t) : valid t = .ok true :=
  (C01_valid_iff_rfc8259 _).2 ⟨[], t, [], by simp, Ws.nil, Ws.nil, h⟩

/-- C63: every value is found: whatever is reached from a value whose text is JSON, `get` finds
with the indexes and keys on the way, with pipes between them. -/
theorem C63_reached {v x : Value} {ks : List Bytes} (h : Handed v) (hv : valid v.json = .ok true) (hr : HandedDown v ks x) (hne : ks ≠ []) :
    ∃ w, v.get (pipePath (ks.map fun k => [k])) = .ok w ∧ w.exists = true ∧ SameValue w x := by
  induction hr with
  | here => exact absurd rfl hne
  | @element v y x vs n ks hk ha hn hlt hr ih =>
    obtain ⟨t, w, e, hw, ht, hkt⟩ := value_text h (exists_cont h (.inr hk)) hv
    obtain ⟨ts, hta⟩ := C27_covers t ht (hkt.trans hk)
    obtain ⟨vals, a1, a2, _⟩ := C27_each_value v t w ts hta hk e
    rw [ha] at a1; cases a1
    have hy : Handed y := .element h ha (List.mem_of_getElem? hn)
    obtain ⟨ty, hm, hty⟩ := aligned_left a2 y (List.mem_of_getElem? hn)
    have hvy : valid y.json = .ok true := by rw [hty.1]; exact valid_value (IsArray.mem_value hta ty hm).1
    by_cases hks : ks = []
    · subst hks
      cases hr
      obtain ⟨u, h1, h2, _⟩ := C60_index h hk ha (plainKey_numeral n).1 (indexText_numeral n) hlt
      exact ⟨u, h1, h2 _ hn⟩
    · obtain ⟨u, h1, h2, h3⟩ := ih hy hvy hks
      have := C60_index_rest h hk ha (plainKey_numeral n).1 (indexText_numeral n) hlt (c := c! '|') (.inr rfl) (pipePath (ks.map fun k => [k])) hn
      rw [h1] at this
      obtain ⟨z, h4, h5⟩ := sameRes_ok this
      obtain ⟨k', ks', rfl⟩ := List.exists_cons_of_ne_nil hks
      exact ⟨z, h4, by rw [exists_json.2]; rw [h5.json]; exact exists_json.1 h2, h5.trans h3⟩
  | @member v x p before after s ks hk ha hs hb hq hr ih =>
    obtain ⟨t, w, kvs, e, hd, ho, hal⟩ := pairs_of h hk hv ha
    have hy : Handed p.2 := .entry h ha (k := p.1) (e := p.2) (by simp)
    obtain ⟨kv, hm, hty⟩ := aligned_left hal p (by simp)
    have hvy : valid p.2.json = .ok true := by rw [hty.2.1]; exact valid_value (IsObject.mem_value ho kv hm).2
    obtain ⟨u, h1, h2, _⟩ := C63_key h hk hv ha hq
    obtain ⟨h2, h3⟩ := h2 _ _ _ rfl hs hb
    by_cases hks : ks = []
    · subst hks
      cases hr
      exact ⟨u, h1, h2, h3⟩
    · obtain ⟨z, g1, g2, g3⟩ := ih hy hvy hks
      obtain ⟨k', ks', rfl⟩ := List.exists_cons_of_ne_nil hks
      have hp : SameRes (get v.json (dotPath [escapeKey s] ++ c! '|' :: pipePath ((k' :: ks').map fun k => [k])))
          (get v.json (dotPath [escapeKey s]) >>= fun v => v.get (pipePath ((k' :: ks').map fun k => [k]))) := by
        by_cases hn : s = []
        · subst hn
          have e := C12_pipe_empty v.json (pipePath ((k' :: ks').map fun k => [k]))
          exact e ▸ .refl _
        · exact C12_pipe v.json (pipePath ((k' :: ks').map fun k => [k])) (ks := [escapeKey s]) (by
            intro k hk; simp at hk; subst hk; exact escapeKey_selector hn) (by simp)
      have c1 := C12_value_get h (dotPath [escapeKey s])
      rw [show v.get (dotPath [escapeKey s]) = .ok u from h1] at c1
      obtain ⟨u', c2, c3⟩ := sameRes_ok c1.symm
      rw [c2, ok_bind] at hp
      have c4 : SameRes (u'.get (pipePath ((k' :: ks').map fun k => [k]))) (p.2.get (pipePath ((k' :: ks').map fun k => [k]))) :=
        getIn_congr_same (Handed.get c2).oneText hy.oneText (c3.trans h3) _
      have hp := ((C12_value_get h _).trans hp).trans c4
      rw [g1] at hp
      obtain ⟨r, r1, r2⟩ := sameRes_ok hp
      exact ⟨r, r1, exists_json.2 (by rw [r2.json]; exact exists_json.1 g2), r2.trans g3⟩

/-- C63 for documents: what is reached from `parse` of a JSON text, `get` finds in the text. -/
theorem C63_document {doc : Bytes} (hd : JsonText doc) {v x : Value} {ks : List Bytes} (h : parse doc = .ok v) (hr : HandedDown v ks x) (hne : ks ≠ []) :
    ∃ w, get doc (pipePath (ks.map fun k => [k])) = .ok w ∧ w.exists = true ∧ SameValue w x := by
  obtain ⟨w1, t, w2, e, hw1, hw2, ht⟩ := hd
  have hv : valid v.json = .ok true := by
    obtain ⟨v', p1, _, a, b, ha, hb, hj⟩ := parse_padded ht ⟨w1, w2, hw1, hw2, e⟩
    rw [h] at p1; cases p1
    exact (C01_valid_iff_rfc8259 _).2 ⟨a, t, b, hj, ha, hb, ht⟩
  obtain ⟨w, g1, g2, g3⟩ := C63_reached (.parse h) hv hr hne
  obtain ⟨v', h1, h2⟩ := C58_parse_get ⟨w1, t, w2, e, hw1, hw2, ht⟩ (pipePath (ks.map fun k => [k]))
  rw [h] at h1; cases h1
  rw [g1] at h2
  obtain ⟨z, z1, z2⟩ := sameRes_ok h2.symm
  exact ⟨z, z1, exists_json.2 (by rw [z2.json]; exact exists_json.1 g2), z2.trans g3⟩

/-- A key without question marks, escaped, hits exactly itself. -/
theorem hits_escapeKey {s kl : Bytes} (hq : c! '?' ∉ s) : Hits (escapeKey s) kl ↔ KeyIs kl s := by
  have key : ∀ {s u : Bytes}, c! '?' ∉ s → (AlmostKey s u ↔ u = s) := by
    intro s u hs
    unfold AlmostKey
    constructor
    · intro h
      induction h with
      | nil => rfl
      | cons h1 _ ih =>
        rcases h1 with rfl | rfl
        · rw [ih fun h => hs (by simp [h])]
        · exact absurd (by simp) hs
    · rintro rfl
      clear hs
      induction u with
      | nil => exact .nil
      | cons c u ih => exact .cons (.inl rfl) ih
  constructor
  · rintro ⟨u, h1, h2⟩
    rw [escapedAs_code (escapeKey_as s), key hq] at h2
    exact h2 ▸ h1
  · intro h
    exact ⟨s, h, by rw [escapedAs_code (escapeKey_as s), key hq]⟩

theorem handedDown_leads {v x : Value} {ks : List Bytes} (hr : HandedDown v ks x) : Handed v → ∀ {t w : Bytes}, v.json = t ++ w → Ws w →
    IsValue t → kindOf t = v.kind → ∃ r, Leads Hits t ks r ∧ (ks ≠ [] → SameAsText x r) := by
  induction hr with
  | here => exact fun _ t w _ _ _ _ => ⟨t, .here, fun h => absurd rfl h⟩
  | @element v y x vs n ks hk ha hn hlt hr ih =>
    intro h t w e hw ht hkt
    obtain ⟨ts, hta⟩ := C27_covers t ht (hkt.trans hk)
    obtain ⟨vals, a1, a2, _⟩ := C27_each_value v t w ts hta hk e
    rw [ha] at a1; cases a1
    obtain ⟨ty, hm, hty⟩ : ∃ ty, ts[n]? = some ty ∧ SameAsText y ty := by
      rcases aligned_at a2 n with ⟨h1, _⟩ | ⟨a, b, h1, h2, h3⟩
      · rw [hn] at h1; cases h1
      · rw [hn] at h1; cases h1; exact ⟨b, h2, h3⟩
    have hvt := IsArray.mem_value hta ty (List.mem_of_getElem? hm)
    obtain ⟨r, h1, h2⟩ := ih (.element h ha (List.mem_of_getElem? hn)) (t := ty) (w := []) (by rw [hty.1]; simp) Ws.nil hvt.1 hty.2.1.symm
    refine ⟨r, .index hta (indexText_numeral n) hlt hm h1, fun _ => ?_⟩
    by_cases hks : ks = []
    · subst hks; cases hr; cases h1; exact hty
    · exact h2 hks
  | @member v x p before after s ks hk ha hs hb hq hr ih =>
    intro h t w e hw ht hkt
    obtain ⟨kvs, ho⟩ := C28_covers t ht (hkt.trans hk)
    obtain ⟨l, l1, l2⟩ := C28_each_value v t w kvs ho hk e
    have : v.pairs = .ok l := by
      unfold Value.pairs
      rw [l2]
      exact visit_collect_pairs l []
    rw [ha] at this
    cases this
    obtain ⟨b1, y, b2, rfl, h1, h2, h3⟩ := aligned_split l1
    have hvt := (IsObject.mem_value ho y (by simp)).2
    obtain ⟨r, g1, g2⟩ := ih (.entry h ha (k := p.1) (e := p.2) (by simp)) (t := y.2) (w := []) (by rw [h2.2.1]; simp) Ws.nil hvt h2.2.2.1.symm
    refine ⟨r, .key (kl := y.1) (v := y.2) ho (fun m hm => ?_) ((hits_escapeKey hq).2 ((pair_key h2 s).1 hs)) g1, fun _ => ?_⟩
    · obtain ⟨q, hq', hqm⟩ := aligned_right h1 m hm
      exact fun hh => hb q hq' ((pair_key hqm s).2 ((hits_escapeKey hq).1 hh))
    · by_cases hks : ks = []
      · subst hks; cases hr; cases g1; exact h2.2
      · exact g2 hks

/-- C63 with dots between the indexes and keys, none of which may be empty. -/
theorem C63_dotted {doc : Bytes} (hd : JsonText doc) {v x : Value} {ks : List Bytes} (h : parse doc = .ok v) (hr : HandedDown v ks x) (hne : ks ≠ [])
    (hke : [] ∉ ks) : ∃ w, get doc (dotPath ks) = .ok w ∧ w.exists = true ∧ SameValue w x := by
  obtain ⟨w1, t, w2, e, hw1, hw2, ht⟩ := hd
  have hp : Padded t doc := ⟨w1, w2, hw1, hw2, e⟩
  have hv : valid v.json = .ok true := by
    obtain ⟨v', p1, _, a, b, ha, hb, hj⟩ := parse_padded ht hp
    rw [h] at p1; cases p1
    exact (C01_valid_iff_rfc8259 _).2 ⟨a, t, b, hj, ha, hb, ht⟩
  have hex : v.exists = true := by
    cases hr with
    | here => exact absurd rfl hne
    | element hk => exact exists_cont (.parse h) (.inr hk)
    | member hk => exact exists_cont (.parse h) (.inl hk)
  obtain ⟨u, w, e1, hw, hu, hk⟩ := value_text (.parse h) hex hv
  obtain ⟨r, l1, l2⟩ := handedDown_leads hr (.parse h) e1 hw hu hk
  have hsel : ∀ k ∈ ks, Selector k := by
    clear l1 l2 hne e1 hu hk hv hex h ht hp
    induction hr with
    | here => intro k hk; cases hk
    | @element v y x vs n ks _ _ _ _ _ ih =>
      intro k hk
      rcases List.mem_cons.1 hk with rfl | hk
      · exact PlainKey.selector (plainKey_numeral n).1 (plainKey_numeral n).2
      · exact ih (fun h => hke (by simp [h])) k hk
    | @member v x p before after s ks _ _ _ _ _ _ ih =>
      intro k hk
      rcases List.mem_cons.1 hk with rfl | hk
      · exact escapeKey_selector fun e => hke (by subst e; simp [escapeKey])
      · exact ih (fun h => hke (by simp [h])) k hk
  have hpu : Padded u v.json := ⟨[], w, Ws.nil, hw, by simpa using e1⟩
  obtain ⟨z, z1, z2, _⟩ := C10_exact hu hpu hsel hne
  have z3 := z2 r (leads_find l1 hne)
  obtain ⟨v', h1, h2⟩ := C58_parse_get ⟨w1, t, w2, e, hw1, hw2, ht⟩ (dotPath ks)
  rw [h] at h1; cases h1
  have h3 := h2.symm.trans (C12_value_get (.parse h) (dotPath ks))
  rw [z1] at h3
  obtain ⟨y, y1, y2⟩ := sameRes_ok h3
  refine ⟨y, y1, exists_json.2 ?_, y2.trans (same_of_text z3 (l2 hne))⟩
  rw [y2.json, z3.1]
  exact isValue_ne_nil ((leads_inside l1).value hu)

/-- A document with a dot in a key and an escape in another one. -/
def sampleDoc : Bytes := b!" {\"x\":0, \"a.b\" : [1 , {\"c\\u0064\":\"e\", \"x\":{}}]}\n"

/-- The hypotheses of C63 can be met: a path of three steps. -/
example : ∃ v x, parse sampleDoc = .ok v ∧ JsonText sampleDoc ∧ HandedDown v [b!"a\\.b", b!"1", b!"cd"] x ∧ x.str = .ok b!"e" := by
  have key : ∀ {r : Res (List (Value × Value))} {before p after}, r.toOption = some (before ++ p :: after) → r = .ok (before ++ p :: after) := by
    intro r _ _ _ h
    cases r with
    | error e => cases h
    | ok l => exact congrArg Except.ok (Option.some.inj h)
  let v : Value := ⟨sampleDoc.drop 1, [], [], INFO_OBJECT ||| INFO_FOG, some 1⟩
  let y : Value := ⟨b!"[1 , {\"c\\u0064\":\"e\", \"x\":{}}]", [], [], INFO_ARRAY, some 16⟩
  let z : Value := ⟨b!"{\"c\\u0064\":\"e\", \"x\":{}}", [], [], INFO_OBJECT, some 5⟩
  let x : Value := ⟨b!"\"e\"", [], [], INFO_STRING, some 11⟩
  refine ⟨v, x, by decide +kernel, (C01_valid_iff_rfc8259 _).1 (by decide +kernel), ?_, by decide +kernel⟩
  refine .member (s := b!"a.b") (before := [(⟨b!"\"x\"", [], [], INFO_STRING, some 1⟩, ⟨b!"0", [], [], INFO_NUMBER, some 5⟩)])
    (p := (⟨b!"\"a.b\"", [], [], INFO_STRING, some 8⟩, y)) (after := []) (by decide) (key (by decide +kernel)) (by decide) (by decide) (by decide) ?_
  refine .element (n := 1) (vs := [⟨b!"1", [], [], INFO_NUMBER, some 1⟩, z]) (by decide) (by decide +kernel) rfl (by decide) ?_
  exact .member (s := b!"cd") (before := []) (p := (⟨b!"\"c\\u0064\"", [], b!"cd", INFO_STRING ||| INFO_ESC, some 1⟩, x))
    (after := [(⟨b!"\"x\"", [], [], INFO_STRING, some 16⟩, ⟨b!"{}", [], [], INFO_OBJECT, some 20⟩)]) (by decide) (key (by decide +kernel))
    (by decide) (by decide) (by decide) .here

/-- C63 is about JSON: where a comma stands for a colon, or no key for the first value, `each` makes
up its pairs differently. -/
theorem C63_needed :
    (parse b!"{\"a\",1}" >>= fun v => v.pairs >>= fun l => v.get b!"a" >>= fun w => .ok (l.map fun p => (p.1.json, p.2.json), w.exists)) =
      .ok ([(b!"\"a\"", b!"1")], false) ∧
    (parse b!"{0 \"a\":1}" >>= fun v => v.pairs >>= fun l => v.get b!"a" >>= fun w => .ok (l.map fun p => (p.1.json, p.2.json), w.json)) =
      .ok ([(b!"0", b!"\"a\"")], b!"1") := by decide +kernel

end Gjson
