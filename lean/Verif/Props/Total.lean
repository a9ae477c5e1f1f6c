import Verif.Lemmas.Total
import Verif.Lemmas.Enum
import Verif.Lemmas.Same
/-
C03, C04, and C05 and C26 for the values that come out of `get`, `each` and
`array`.
-/
namespace Gjson
open Spec

/-! ### C03 -/

/-- C03: `get` comes to an end on every text and path. The model runs with fuel
`path.length + 2` for the nesting of `get` in itself; neither this fuel nor the
one of any loop runs out. -/
theorem C03_get_terminates (json path : Bytes) : get json path ≠ .error .fuel := by
  rcases get_fine path json with ⟨v, h⟩ | ⟨h, _⟩ <;> rw [h] <;> simp

/-- C03: more fuel does not change the result, so the recursion is no deeper than
`path.length + 2`. -/
theorem C03_recursion_bounded (json path : Bytes) (n : Nat) (h : path.length + 2 ≤ n) :
    getN n json path = get json path := getN_eq h

/-- C03: the same for `Value::get`. -/
theorem C03_value_get_terminates (v : Value) (path : Bytes) : v.get path ≠ .error .fuel := by
  rcases getIn_fine (v := v) (get_fine path) with ⟨w, h⟩ | ⟨h, _⟩ <;>
    (unfold Value.get; rw [h]; simp)

/-- C03: `each` with a callback that ends. -/
theorem C03_each_terminates {σ : Type} (v : Value) (f : σ → Value → Value → Res (σ × Bool)) (st : σ)
    (hf : ∀ st k e, f st k e ≠ .error .fuel) : v.each f st ≠ .error .fuel := by
  have hrun : ∀ l st, runFold f st l ≠ .error .fuel := by
    intro l
    induction l with
    | nil => intro st; simp [runFold]
    | cons x r ih =>
      intro st
      obtain ⟨k, e⟩ := x
      unfold runFold
      cases h : f st k e with
      | error er => rw [error_bind]; intro hc; simp at hc; rw [hc] at h; exact hf _ _ _ h
      | ok y =>
        obtain ⟨s1, m⟩ := y
        rw [ok_bind]
        simp only
        split
        · exact ih _
        · simp
  unfold Value.each
  split
  · simp
  split
  · cases h : f st Value.default (jsonCloneFromRef v) with
    | error er => rw [error_bind]; intro hc; simp at hc; rw [hc] at h; exact hf _ _ _ h
    | ok y => rw [ok_bind]; simp
  · obtain ⟨j, hj⟩ := forEach_at (json := v.json) (kind := v.kind) (f := f) false st (At.zero v.json)
    rw [hj]
    have := hrun (eachPairs v.kind (eachToks 0 false v.json)) st
    cases h : runFold f st (eachPairs v.kind (eachToks 0 false v.json)) with
    | error er => rw [h] at this; simpa [error_bind] using this
    | ok y => simp [ok_bind]

/-- A path that nests `get` by a multipath, a query, a modifier and a pipe. -/
example : (get b!"{\"a\":[{\"b\":1},{\"b\":2}]}" b!"[a.#(b>1).b|@this,a.#]" >>= fun v => .ok v.json) =
    .ok b!"[2,2]" := by decide +kernel

/-! ### C04 -/

/-- C04: no out-of-bounds read, on any text and any path. -/
theorem C04_no_oob (json path : Bytes) : get json path ≠ .error .oob := by
  rcases get_fine path json with ⟨v, h⟩ | ⟨h, _⟩ <;> rw [h] <;> simp

/-- C04: `get` returns a value unless the path has, in this order, `#(`, `@pretty:`,
`"prefix"` (or a backslash) and `~` (or a backslash): a query that compares by truth
what `@pretty` makes when it may be asked to insert a prefix.
Missing: those paths, where it is false (`C04_false`). -/
theorem C04_get_partial (json path : Bytes) (h : ¬ PrefixInQuery path) : ∃ v, get json path = .ok v := by
  rcases get_fine path json with h' | ⟨_, hb⟩
  · exact h'
  · exact absurd hb h

/-- C04 for `Value::get`. -/
theorem C04_value_get_partial (v : Value) (path : Bytes) (h : ¬ PrefixInQuery path) :
    ∃ w, v.get path = .ok w := by
  rcases getIn_fine (v := v) (get_fine path) with h' | ⟨_, hb⟩
  · exact h'
  · exact absurd hb h

/-- C04: the only failure there is, on any input, is that panic. -/
theorem C04_only_panic (json path : Bytes) :
    (∃ v, get json path = .ok v) ∨ (get json path = .error .panic ∧ PrefixInQuery path) := get_fine path json

/-- C04, in particular: `get` returns a value if `@pretty:` does not occur behind `#(`. -/
theorem C04_get_words_partial (json path : Bytes) (h : ¬ InOrder [[b!"#("], [b!"@pretty:"]] path) :
    ∃ v, get json path = .ok v :=
  C04_get_partial json path fun hb => h (InOrder.init (ws := [[b!"#("], [b!"@pretty:"]]) hb)

/-- C04 is false as stated: a query whose left side pretty-prints with a quote as
prefix makes an unclosed string, and `bool()` on it (for `=~`) panics, although the
text is valid JSON. -/
theorem C04_false :
    get b!"[1]" b!"#(@pretty:{\"prefix\":\"\\\"\"}=~true)" = .error .panic := by decide +kernel

/-- The words in the condition are all there in that path; the member `prefix` can
also be written with an escape. -/
example : PrefixInQuery b!"#(@pretty:{\"prefix\":\"\\\"\"}=~true)" ∧
    get b!"[1]" b!"#(@pretty:{\"pref\\u0069x\":\"\\\"\"}=~true)" = .error .panic :=
  ⟨⟨[], b!"#(", _, by simp, rfl, [], b!"@pretty:", _, by simp, rfl, b!"{", b!"\"prefix\"", _, by simp, rfl,
    b!":\"\\\"\"}=", b!"~", _, by simp, rfl, trivial⟩, by decide +kernel⟩

/-- The hypothesis of `C04_get_partial` is met by a path that pretty-prints inside a
query, on a text that is not JSON. -/
example : ¬ PrefixInQuery b!"a.#(b|@pretty:{\"width\":1}=~true)#|@ugly" ∧
    (get b!"{\"a\":[{\"b\":0},{\"b\":true},{]" b!"a.#(b|@pretty:{\"width\":1}=~true)#|@ugly" >>=
      fun v => .ok v.json) = .ok b!"[{\"b\":true}]" := by
  constructor
  · intro h
    obtain ⟨w, hw, h⟩ := h.word (l := [b!"\"prefix\"", b!"\\"]) (by simp)
    simp only [List.mem_cons, List.not_mem_nil, or_false] at hw
    rcases hw with rfl | rfl <;> (revert h; decide +kernel)
  · decide +kernel

/-! ### C05 and C26 -/

/-- No accessor panics on the value, and it can be compared with any value of
this kind (`C26_total_order`). -/
structure AccessOk (v : Value) : Prop where
  str : ∃ s, v.str = .ok s
  i64 : ∃ x, v.i64 = .ok x
  u64 : ∃ x, v.u64 = .ok x
  f64 : ∃ x, v.f64 = .ok x
  bool : ∃ x, v.bool = .ok x
  i32 : ∃ x, v.i32 = .ok x
  i16 : ∃ x, v.i16 = .ok x
  i8 : ∃ x, v.i8 = .ok x
  u32 : ∃ x, v.u32 = .ok x
  u16 : ∃ x, v.u16 = .ok x
  u8 : ∃ x, v.u8 = .ok x
  cmp : Comparable v
  display : ∃ s, v.display = .ok s

theorem GoodVal.access {v : Value} (g : GoodVal v) (he : v.exists = true ∨ v.kind ≠ .string) : AccessOk v := by
  obtain ⟨i, hi⟩ := g.i64Ok he
  obtain ⟨u, hu⟩ := g.u64Ok he
  have hi32 : ∃ x, v.i32 = .ok x := by unfold Value.i32; rw [hi, ok_bind]; simp only [Except.ok.injEq, exists_eq']
  have hu32 : ∃ x, v.u32 = .ok x := by unfold Value.u32; rw [hu, ok_bind]; simp only [Except.ok.injEq, exists_eq']
  refine ⟨g.strOk he, ⟨i, hi⟩, ⟨u, hu⟩, g.f64Ok he, g.boolOk he, hi32, ?_, ?_, hu32, ?_, ?_, g.comparable he, g.strOk he⟩
  · unfold Value.i16; rw [hi, ok_bind]; exact ⟨_, rfl⟩
  · unfold Value.i8; rw [hi, ok_bind]; exact ⟨_, rfl⟩
  · unfold Value.u16; rw [hu, ok_bind]; exact ⟨_, rfl⟩
  · unfold Value.u8; rw [hu, ok_bind]; exact ⟨_, rfl⟩

theorem qStr_none_iff : ∀ (s : Bytes), qStr s = none ↔ OpenStr s
  | [] => ⟨fun _ => .nil, fun _ => rfl⟩
  | c :: r => by
    rw [qStr.eq_def]
    simp only
    by_cases h1 : c = c! '"'
    · rw [if_pos h1]
      subst h1
      constructor
      · intro h; simp at h
      · intro h; cases h; contradiction
    rw [if_neg h1]
    by_cases h2 : c = c! '\\'
    · rw [if_pos h2]
      subst h2
      cases r with
      | nil => exact ⟨fun _ => .lone, fun _ => rfl⟩
      | cons e r' =>
        have ih := qStr_none_iff r'
        simp only
        constructor
        · intro h
          cases hq : qStr r' with
          | none => exact .esc (ih.1 hq)
          | some x => rw [hq] at h; simp [push1, setEsc] at h
        · intro h
          have : OpenStr r' := by
            cases h with
            | esc h => exact h
            | plain _ h _ => exact absurd rfl h
          rw [ih.2 this]; rfl
    · rw [if_neg h2]
      have ih := qStr_none_iff r
      constructor
      · intro h
        cases hq : qStr r with
        | none => exact .plain h1 h2 (ih.1 hq)
        | some x => rw [hq] at h; simp [push1] at h
      · intro h
        have : OpenStr r := by
          cases h with
          | lone => exact absurd rfl h2
          | esc h => exact absurd rfl h2
          | plain _ _ h => exact h
        rw [ih.2 this]; rfl
termination_by s => s.length

theorem nu_iff : ∀ (s : Bytes), nu s ↔ ¬ StartsUnclosed s
  | [] => by
    simp only [nu, true_iff]
    rintro ⟨w, b, _, h, _⟩
    simp at h
  | c :: r => by
    have ih := nu_iff r
    unfold nu
    by_cases h1 : c ≤ c! ' '
    · rw [if_pos h1, ih]
      constructor
      · rintro h ⟨w, b, hw, hs, hb⟩
        cases w with
        | nil => simp at hs; rw [hs.1] at h1; exact absurd h1 (by decide)
        | cons x w =>
          simp at hs
          exact h ⟨w, b, fun c hc => hw c (by simp [hc]), hs.2, hb⟩
      · rintro h ⟨w, b, hw, hs, hb⟩
        exact h ⟨c :: w, b, by simp only [List.mem_cons]; rintro x (rfl | hx); exact h1; exact hw x hx,
          by rw [hs]; rfl, hb⟩
    · rw [if_neg h1]
      constructor
      · rintro h ⟨w, b, hw, hs, hb⟩
        cases w with
        | nil => simp at hs; rw [hs.2] at h; exact h hs.1 ((qStr_none_iff b).2 hb)
        | cons x w => simp at hs; exact h1 (by rw [hs.1]; exact hw x (by simp))
      · rintro h rfl hq
        exact h ⟨[], r, by simp, rfl, (qStr_none_iff r).1 hq⟩

/-- C05 for `parse`: no accessor panics unless the text starts with an unclosed
string. Missing: those texts, where it is false (`C05_false_unclosed`). -/
theorem C05_parse_text_partial (json : Bytes) (v : Value) (h : parse json = .ok v) (hs : ¬ StartsUnclosed json) :
    AccessOk v := by
  rw [parse_eq] at h
  cases h
  exact (pParse_good json 0).access (pParse_use json 0 ((nu_iff json).2 hs))

/-- C05 for `get`, any text and path: no accessor panics on a result that exists
or is not of kind String. Missing: strings that do not exist, where it is false
(`C05_get_false`). -/
theorem C05_get_partial (json path : Bytes) (v : Value) (h : get json path = .ok v)
    (he : v.exists = true ∨ v.kind ≠ .string) : AccessOk v := (get_prov h).good.access he

/-- C05 for `get`: no accessor panics on the result, found or not, when the text
does not start with an unclosed string and `@pretty` does not occur in the path. -/
theorem C05_get_text_partial (json path : Bytes) (v : Value) (h : get json path = .ok v)
    (hs : ¬ StartsUnclosed json) (hp : ¬ b!"@pretty" <:+: path) : AccessOk v :=
  (get_prov h).good.access (get_clean (.inl ⟨hp, (nu_iff json).2 hs⟩) h).use

theorem pk_iff : ∀ (s : Bytes), pk s ↔ ¬ FirstUnclosed s
  | [] => by
    simp only [pk, true_iff]
    rintro ⟨w, b, _, h, _⟩
    simp at h
  | c :: r => by
    have ih := pk_iff r
    unfold pk
    by_cases h1 : c = c! '"'
    · rw [if_pos h1]
      subst h1
      constructor
      · rintro h ⟨w, b, hw, hs, hb⟩
        cases w with
        | nil => simp at hs; rw [hs] at h; exact h ((qStr_none_iff b).2 hb)
        | cons x w =>
          simp at hs
          exact hw x (by simp) (by rw [← hs.1]; exact .inl rfl)
      · intro h hq
        exact h ⟨[], r, by simp, rfl, (qStr_none_iff r).1 hq⟩
    · rw [if_neg h1]
      split
      · rename_i h2
        simp only [true_iff]
        rintro ⟨w, b, hw, hs, hb⟩
        cases w with
        | nil => simp at hs; exact h1 hs.1
        | cons x w =>
          simp at hs
          refine hw x (by simp) (.inr ?_)
          rw [← hs.1]
          simp only [IsDigit, List.mem_cons, List.not_mem_nil, or_false]
          grind
      · rename_i h2
        rw [ih]
        constructor
        · rintro h ⟨w, b, hw, hs, hb⟩
          cases w with
          | nil => simp at hs; exact h1 hs.1
          | cons x w => simp at hs; exact h ⟨w, b, fun c hc => hw c (by simp [hc]), hs.2, hb⟩
        · rintro h ⟨w, b, hw, hs, hb⟩
          refine h ⟨c :: w, b, ?_, by rw [hs]; rfl, hb⟩
          simp only [List.mem_cons]
          rintro x (rfl | hx)
          · rintro (h3 | h3 | h3)
            · exact h1 h3
            · unfold IsDigit at h3; grind
            · simp only [List.mem_cons, List.not_mem_nil, or_false] at h3; grind
          · exact hw x hx

theorem jsonText_pk {json : Bytes} (h : JsonText json) : pk json := by
  obtain ⟨w1, v, w2, rfl, hw, _, hv⟩ := h
  induction w1 with
  | nil =>
    cases hv with
    | null => exact pk_start (by decide)
    | true => exact pk_start (by decide)
    | false => exact pk_start (by decide)
    | str hs =>
      obtain ⟨b, hb, rfl⟩ := hs
      simp only [List.nil_append, List.cons_append, List.append_assoc]
      unfold pk
      rw [if_pos rfl, qStr_body hb]
      simp
    | num hs =>
      obtain ⟨c, q, rfl, hd⟩ := NumLit.cons hs
      unfold IsDigit at hd
      exact pk_start (by grind)
    | arrEmpty _ => exact pk_start (by decide)
    | arr _ _ _ => exact pk_start (by decide)
    | objEmpty _ => exact pk_start (by decide)
    | obj _ _ _ => exact pk_start (by decide)
  | cons c r ih =>
    have hc : IsWs c := hw c (by simp)
    rw [List.cons_append]
    unfold pk
    rw [if_neg (by rcases hc with rfl | rfl | rfl | rfl <;> decide),
      if_neg (by rcases hc with rfl | rfl | rfl | rfl <;> decide)]
    exact ih (fun x hx => hw x (by simp [hx]))

theorem jsonText_closed {json : Bytes} (h : JsonText json) : ¬ StartsUnclosed json := (nu_iff json).1 (jsonText_pk h).nu

/-- C05 for `get`, also with `@pretty` in the path: no accessor panics on the result,
found or not, when the first value in the text is not an unclosed string and `@pretty`
is not asked for a prefix. -/
theorem C05_get_pretty_partial (json path : Bytes) (v : Value) (h : get json path = .ok v)
    (hs : ¬ FirstUnclosed json) (hp : ¬ AsksPrefix path) : AccessOk v :=
  (get_prov h).good.access (get_clean (.inr ⟨hp, (pk_iff json).2 hs⟩) h).use

/-- C05 on valid JSON: `get` returns a value on which no accessor panics, unless the path
has a `@pretty` that may be asked for a prefix. -/
theorem C05_get_valid_partial (json path : Bytes) (hj : JsonText json) (hp : ¬ AsksPrefix path) :
    ∃ v, get json path = .ok v ∧ AccessOk v := by
  obtain ⟨v, hv⟩ := C04_get_partial json path (fun h => hp h.asks)
  exact ⟨v, hv, C05_get_pretty_partial json path v hv ((pk_iff json).1 (jsonText_pk hj)) hp⟩

/-- C05 for `Value::get`. -/
theorem C05_value_get_partial (v w : Value) (path : Bytes) (h : v.get path = .ok w)
    (he : w.exists = true ∨ w.kind ≠ .string) : AccessOk w := (valueGet_prov h).good.access he

theorem AccessOk.same {v w : Value} (h : AccessOk v) (hs : SameValue v w) : AccessOk w := by
  obtain ⟨h1, h2, h3, h4, h5, h6, h7, h8, h9, h10, h11, h12, _⟩ := h
  refine ⟨hs.str ▸ h1, hs.i64 ▸ h2, hs.u64 ▸ h3, hs.f64 ▸ h4, hs.bool ▸ h5, ?_, ?_, ?_, ?_, ?_, ?_, ?_, (show ∃ s, w.str = .ok s from hs.str ▸ h1)⟩
  · simpa only [Value.i32, hs.i64] using h6
  · simpa only [Value.i16, hs.i64] using h7
  · simpa only [Value.i8, hs.i64] using h8
  · simpa only [Value.u32, hs.u64] using h9
  · simpa only [Value.u16, hs.u64] using h10
  · simpa only [Value.u8, hs.u64] using h11
  · refine ⟨fun hk => hs.str ▸ h12.str (hs.kind.trans hk), fun hk => hs.f64 ▸ h12.num (hs.kind.trans hk)⟩

theorem default_access : AccessOk Value.default :=
  (⟨by simp, by simp [Value.json, Value.default]⟩ : GoodVal Value.default).access (.inr (by decide))

/-- C05 for `each`: on every value of kind Object or Array, whatever its text, and
on every other value that can be used itself, no accessor panics on the keys and
values given to the callback. -/
theorem C05_each (v : Value) (hv : v.kind = .object ∨ v.kind = .array ∨ AccessOk v) : ∃ pairs : List (Value × Value),
    (∀ p ∈ pairs, AccessOk p.1 ∧ AccessOk p.2) ∧
    ∀ (σ : Type) (f : σ → Value → Value → Res (σ × Bool)) (st : σ),
      v.each f st = visit (fun st p => f st p.1 p.2) st pairs := by
  by_cases he : v.exists = true
  · by_cases hk : v.kind = .object ∨ v.kind = .array
    · refine ⟨eachPairs v.kind (eachToks 0 false v.json), ?_, fun σ f st => ?_⟩
      · have hg : ∀ e ∈ eachToks 0 false v.json, AccessOk e := fun e h =>
          (toks_good _ _ _ e h).2.access (.inl (toks_good _ _ _ e h).1)
        intro p hp
        unfold eachPairs at hp
        split at hp
        · exact ⟨hg _ (pairUp_mem p hp).1, hg _ (pairUp_mem p hp).2⟩
        · obtain ⟨e, h1, rfl⟩ := List.mem_map.1 hp
          exact ⟨default_access, hg e h1⟩
      · rw [each_run he hk, runFold_visit]
    · have hv : AccessOk v := by rcases hv with h | h | h; exact absurd (.inl h) hk; exact absurd (.inr h) hk; exact h
      refine ⟨[(Value.default, jsonCloneFromRef v)], ?_, fun σ f st => ?_⟩
      · intro p hp
        simp at hp; subst hp
        exact ⟨default_access, hv.same (sameValue_of (by simp [jsonCloneFromRef, Value.json]) rfl
          (fun _ => ⟨rfl, fun _ => rfl⟩))⟩
      · unfold Value.each
        rw [if_neg (by simp [he]), if_pos (by simpa using hk)]
        simp only [visit]
        cases f st Value.default (jsonCloneFromRef v) with
        | error e => rfl
        | ok x => obtain ⟨s, m⟩ := x; cases m <;> rfl
  · refine ⟨[], by simp, fun σ f st => ?_⟩
    unfold Value.each; rw [if_pos (by simpa using he)]; rfl

/-- C05 for `array`: it does not fail, and no accessor panics on the elements. -/
theorem C05_array (v : Value) : ∃ vs, v.array = .ok vs ∧ ∀ e ∈ vs, AccessOk e := by
  unfold Value.array
  split
  · rename_i hk
    obtain ⟨pairs, hp, h⟩ := C05_each v (.inr (.inl hk))
    rw [h]
    have : ∀ (l : List (Value × Value)) (acc : List Value), (∀ p ∈ l, AccessOk p.1 ∧ AccessOk p.2) → (∀ e ∈ acc, AccessOk e) →
        ∃ vs, visit (ε := Fault) (fun st p => .ok (st ++ [p.2], true)) acc l = .ok vs ∧ ∀ e ∈ vs, AccessOk e := by
      intro l
      induction l with
      | nil => intro acc _ h2; exact ⟨acc, rfl, h2⟩
      | cons p r ih =>
        intro acc h1 h2
        refine ih (acc ++ [p.2]) (fun q hq => h1 q (by simp [hq])) ?_
        intro e he
        simp at he
        rcases he with he | rfl
        · exact h2 e he
        · exact (h1 p (by simp)).2
    exact this pairs [] hp (by simp)
  · exact ⟨[], rfl, by simp⟩

/-- C05 is false for `get` too: on an unclosed string for any path that returns
the whole text, and even on valid JSON when the path pretty-prints with a quote as
the prefix. -/
theorem C05_get_false :
    (get b!"\"abc" b!"@this" >>= Value.str) = .error .panic ∧
    (get b!"1" b!"@pretty:{\"prefix\":\"\\\"\"}" >>= Value.str) = .error .panic := by decide +kernel

/-- The hypotheses of `C05_get_text_partial` are met by a malformed text; the value
found has kind String. -/
example : ¬ StartsUnclosed b!"{\"a\":\"x\\n\",]" ∧ ¬ b!"@pretty" <:+: b!"a" ∧
    (get b!"{\"a\":\"x\\n\",]" b!"a" >>= Value.str) = .ok b!"x\n" := by
  refine ⟨?_, by decide +kernel, by decide +kernel⟩
  rw [← nu_iff]; exact nu_other (by decide) (by decide)

/-- C26: everything `get` finds can be compared: the laws of `C26_total_order`
hold for any results of `get` on any texts and paths. -/
theorem C26_get_comparable (json path : Bytes) (v : Value) (h : get json path = .ok v) (he : v.exists = true) :
    Comparable v := (C05_get_partial json path v h (.inl he)).cmp

end Gjson
