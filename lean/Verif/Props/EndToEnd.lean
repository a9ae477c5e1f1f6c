import Verif.Props.Any
import Verif.Props.EveryText
import Verif.Props.Numbers
/-
C75: from any text and any path to strings, numbers and truth values, through any chain of
calls. The rules of C74 give the text of the result, those of C69 what is read from it.
-/
namespace Gjson
open Spec

namespace Spec

/-- The call succeeds with a value that is told by the text `r` alone: its text, kind and
existence, and what every accessor reads from it. An empty `r` is told too: a null that
reads as nothing, zero and false. -/
structure ToldBy (x : Res Value) (r : Bytes) : Prop where
  value : ∃ v, x = .ok v ∧ v.json = r ∧ v.kind = kindOf r ∧ v.exists = decide (r ≠ [])
  str (s : Bytes) : (x >>= Value.str) = .ok s ↔ StrOf r s
  i64 (n : Int) : (x >>= Value.i64) = .ok n ↔ I64Of r n
  u64 (n : Nat) : (x >>= Value.u64) = .ok n ↔ U64Of r n
  f64 (d : F64) : (x >>= Value.f64) = .ok d ↔ F64Of r d
  bool (b : Bool) : (x >>= Value.bool) = .ok b ↔ BoolOf r b
  total : (∃ s, (x >>= Value.str) = .ok s) ∧ (∃ n, (x >>= Value.i64) = .ok n) ∧ (∃ n, (x >>= Value.u64) = .ok n) ∧
    (∃ d, (x >>= Value.f64) = .ok d) ∧ ∃ b, (x >>= Value.bool) = .ok b

end Spec

/-- What the empty text is read as. -/
theorem told_nothing : StrOf [] [] ∧ I64Of [] 0 ∧ U64Of [] 0 ∧ F64Of [] (.fin false 0) ∧ BoolOf [] false := by
  have h : I64Of [] 0 := .other (by decide) (by decide) (by decide)
  exact ⟨.null rfl, h, .other (by decide) (by decide) (by decide), .other (by decide) (by decide) (by decide),
    .num (n := 0) (by decide) (by decide) h⟩

theorem toldBy_fits {v : Value} {r : Bytes} (hv : Handed v) (h : Fits v r) : ToldBy (.ok v) r := by
  have hx := fits_exists h
  by_cases hr : r = []
  · subst hr
    have hs := h.2 rfl
    obtain ⟨_, k, _, d1, d2, d3, _, _, _, _, _, _, d4, d5, _⟩ := C20_default_neutral
    obtain ⟨e1, e2, e3, e4, e5⟩ := told_nothing
    have a1 := hs.str.trans d1
    have a2 := hs.i64.trans d2
    have a3 := hs.u64.trans d3
    have a4 := hs.f64.trans d4
    have a5 := hs.bool.trans d5
    exact ⟨⟨v, rfl, h.1, hs.kind.trans k, hx⟩, ok_iff_of ⟨_, a1, e1⟩ strOf_one,
      ok_iff_of ⟨_, a2, e2⟩ (numberOf_one (R := SignedOf) fun _ _ _ => signed_one),
      ok_iff_of ⟨_, a3, e3⟩ (numberOf_one (R := UnsignedOf) fun _ _ _ => unsigned_one),
      ok_iff_of ⟨_, a4, e4⟩ (numberOf_one (R := FloatOf) fun _ _ _ => float_one), ok_iff_of ⟨_, a5, e5⟩ boolOf_one,
      ⟨_, a1⟩, ⟨_, a2⟩, ⟨_, a3⟩, ⟨_, a4⟩, _, a5⟩
  · have he : v.exists = true := by rw [hx]; exact decide_eq_true hr
    obtain ⟨hj, _⟩ := h
    subst hj
    exact ⟨⟨v, rfl, rfl, (C62_kind hv he), hx⟩, C69_str hv he, C69_i64 hv he, C69_u64 hv he, C69_f64 hv he, C69_bool hv he, C69_total hv he⟩

theorem toldBy_gives {x : Res Value} {r : Bytes} (hv : ∀ v, x = .ok v → Handed v) (h : Gives x r) : ToldBy x r := by
  obtain ⟨v, rfl, h⟩ := h
  exact toldBy_fits (hv v rfl) h

/-- C75: what `get` returns is told by the text that the rules of C74 give. -/
theorem C75_get {doc path r : Bytes} (h : Yields doc path r) : ToldBy (get doc path) r := by
  obtain ⟨n, h⟩ := h
  exact toldBy_gives (fun _ => .get) (yieldsAt_ok n _ _ _ h)

/-- C75: every path without `@` in every text: there is such a text. -/
theorem C75_plain {path : Bytes} (hp : c! '@' ∉ path) (doc : Bytes) : ∃ r, Yields doc path r ∧ ToldBy (get doc path) r := by
  have h : NoCalls path := fun q P n a h1 h2 h3 => hp ((call_infix h1 h2 h3).subset (by simp))
  obtain ⟨r, h, _⟩ := C74_total (noCalls_unpretty h) (doc := doc) (.inr h)
  exact ⟨r, ⟨_, h⟩, C75_get ⟨_, h⟩⟩

/-- C75: and every path without `@pretty` in every text that does not begin with an open string;
searching goes on from there in the same way. -/
theorem C75_mods {doc path : Bytes} (hp : ¬ b!"@pretty" <:+: path) (hd : Fair doc) :
    ∃ r, Yields doc path r ∧ Fair r ∧ ToldBy (get doc path) r := by
  obtain ⟨r, h, hf⟩ := C74_total (infix_unpretty hp) (.inl hd)
  exact ⟨r, ⟨_, h⟩, hf, C75_get ⟨_, h⟩⟩

/-- C75: `Value::get` on anything that is handed out is told by the same rules from its text. -/
theorem C75_value {v : Value} {path r : Bytes} (hv : Handed v) (h : Yields v.json path r) : ToldBy (v.get path) r := by
  obtain ⟨n, h⟩ := h
  exact toldBy_gives (fun _ hw => .value hv hw) ((yieldsAt_ok n _ _ _ h).congr (getIn_same hv.oneText path))

/-- C75: so one call after the other is told by one set of rules after the other. -/
theorem C75_then {doc p q r x : Bytes} (h : Yields doc p r) (h' : Yields r q x) : ToldBy (get doc p >>= fun v => v.get q) x := by
  obtain ⟨v, h1, h2, _⟩ := C74_sound h
  rw [h1, ok_bind]
  exact C75_value (.get h1) (h2 ▸ h')

/-- C75: what `parse` takes from a text that does not begin with an open string. -/
theorem C75_parse {doc r : Bytes} (hd : Fair doc) (h : Parsed doc r) : ToldBy (parse doc) r := by
  have hs := sameValue_owned (pParse_oneText doc 0)
  obtain ⟨h1, h2⟩ := parsed_fits hd h
  exact toldBy_gives (fun _ => .parse) ⟨_, parse_eq _, hs.json.symm.trans h1, fun hr => hs.symm.trans (h2 hr)⟩

theorem toldBy_text {e : Value} {t : Bytes} (he : Handed e) (h : SameAsText e t) (ht : t ≠ []) : ToldBy (.ok e) t :=
  toldBy_fits he ⟨h.1, fun e => absurd e ht⟩

/-- C75: the elements of every array that is handed out are told by the texts met behind its
bracket. -/
theorem C75_array {v : Value} (h : Handed v) (hk : v.kind = .array) : ∃ r vs vals, v.json = c! '[' :: r ∧ Listing r vs ∧
    v.array = .ok vals ∧ Aligned (fun e t => ToldBy (.ok e) t) vals vs := by
  obtain ⟨r, vs, vals, h1, h2, h3, _, h4⟩ := C73_array h hk
  exact ⟨r, vs, vals, h1, h2, h3, aligned_imp (aligned_mem h4) fun e t ⟨he, ht, hs⟩ =>
    toldBy_text (.element h h3 he) hs (readable_ne (listing_readable h2 t ht))⟩

theorem mem_twos : ∀ {ws : List Bytes} {m : Bytes × Bytes}, m ∈ twos ws → m.1 ∈ ws ∧ m.2 ∈ ws
  | [], _, h => by simp [twos] at h
  | [_], _, h => by simp [twos] at h
  | a :: b :: r, m, h => by
    rw [twos, List.mem_cons] at h
    rcases h with rfl | h
    · simp
    · have := mem_twos h
      simp [this]

/-- C75: and so are the keys and values of every object. -/
theorem C75_pairs {v : Value} (h : Handed v) (hk : v.kind = .object) : ∃ r vs ps, v.json = c! '{' :: r ∧ Listing r vs ∧
    v.pairs = .ok ps ∧ Aligned (fun p m => ToldBy (.ok p.1) m.1 ∧ ToldBy (.ok p.2) m.2) ps (twos vs) := by
  obtain ⟨r, vs, ps, h1, h2, h3, _, h4⟩ := C73_pairs h hk
  exact ⟨r, vs, ps, h1, h2, h3, aligned_imp (aligned_mem h4) fun p m ⟨hp, hm, hs⟩ =>
    ⟨toldBy_text (.key h h3 hp) hs.1 (readable_ne (listing_readable h2 _ (mem_twos hm).1)),
     toldBy_text (.entry h h3 hp) hs.2 (readable_ne (listing_readable h2 _ (mem_twos hm).2))⟩⟩

/-- C75: so `each` on any array walks through values told by these texts, with the default value
for the key, until the callback says to stop. -/
theorem C75_each_array {v : Value} (h : Handed v) (hk : v.kind = .array) : ∃ r vs vals, v.json = c! '[' :: r ∧ Listing r vs ∧
    Aligned (fun e t => ToldBy (.ok e) t) vals vs ∧ ∀ (σ : Type) (f : σ → Value → Value → Res (σ × Bool)) (st : σ),
      v.each f st = visit (fun st e => f st Value.default e) st vals := by
  obtain ⟨r, vs, vals, h1, h2, h3, h4⟩ := C75_array h hk
  obtain ⟨vals', _, g⟩ := each_listing h1 hk h2
  have : v.array = .ok vals' := by rw [Value.array, if_pos hk, g, visit_push, List.nil_append]
  rw [h3] at this
  cases this
  exact ⟨r, vs, vals, h1, h2, h4, g⟩

/-- C75: and `each` on any object walks through keys and values told by these texts. -/
theorem C75_each_object {v : Value} (h : Handed v) (hk : v.kind = .object) : ∃ r vs, ∃ ps : List (Value × Value), v.json = c! '{' :: r ∧ Listing r vs ∧
    Aligned (fun p m => ToldBy (.ok p.1) m.1 ∧ ToldBy (.ok p.2) m.2) ps (twos vs) ∧
    ∀ (σ : Type) (f : σ → Value → Value → Res (σ × Bool)) (st : σ), v.each f st = visit (fun st p => f st p.1 p.2) st ps := by
  obtain ⟨r, vs, ps, h1, h2, h3, h4⟩ := C75_pairs h hk
  have g := each_twos h1 hk
  have : v.pairs = .ok (pairUp (toks 1 r)) := by rw [Value.pairs, g, visit_collect_pairs, List.nil_append]
  rw [h3] at this
  cases this
  exact ⟨r, vs, _, h1, h2, h4, g⟩

/-- C75: the other integers follow from these: `i32()` is the nearest value of its range except
that it is the least one from 2^31 on, the others are always the nearest value of their range. -/
theorem C75_narrow {v : Value} {r : Bytes} (h : ToldBy (.ok v) r) :
    (∀ x, I64Of r x → v.i32 = .ok (if x < 2^31 then clamp (-2^31) (2^31 - 1) x else -2^31) ∧ v.i16 = .ok (clamp (-2^15) (2^15 - 1) x) ∧
      v.i8 = .ok (clamp (-2^7) (2^7 - 1) x)) ∧
    ∀ n, U64Of r n → v.u32 = .ok (min (2^32 - 1) n) ∧ v.u16 = .ok (min (2^16 - 1) n) ∧ v.u8 = .ok (min (2^8 - 1) n) := by
  obtain ⟨h1, h2⟩ := C25_saturate_partial v
  refine ⟨fun x hx => ?_, fun n hn => h2 n ((h.u64 n).2 hn)⟩
  have := (h.i64 x).2 hx
  exact ⟨C25_i32_partial v x this, h1 x this⟩

/-- C75: and `f32()` is the nearest 32-bit float to `f64()`. -/
theorem C75_f32 {v : Value} {r : Bytes} (h : ToldBy (.ok v) r) {neg : Bool} {k : Nat} (hx : F64Of r (.fin neg k)) :
    ∃ y, v.f32 = .ok y ∧ binary32.Rounds neg (mag k) y := (C42_f32 v).1 neg k ((h.f64 _).2 hx)

/-! ### Concrete cases -/

/-- In a text that is not JSON: the string with a tab, and the number `1-`, behind two calls. -/
example : ToldBy (get b!"{\"a\" [\"x\ty\",1-" b!"a.0") b!"\"x\ty\"" ∧
    ToldBy (get b!"{\"a\":[3,1-]" b!"a" >>= fun v => v.get b!"1") b!"1-" ∧ ToldBy (get b!"{\"a\"" b!"a") [] ∧
    (get b!"{\"a\":[3,1-]" b!"a" >>= fun v => v.get b!"1") ≠ .ok Value.default :=
  ⟨C75_get ((C74_plain (by decide) _ _).1 (ok_of_json (by decide +kernel))),
   C75_then (r := b!"[3,1-]") ((C74_plain (by decide) _ _).1 (ok_of_json (by decide +kernel)))
     ((C74_plain (by decide) _ _).1 (ok_of_json (by decide +kernel))),
   C75_get ((C74_plain (by decide) _ _).1 (ok_of_json (by decide +kernel))), by decide +kernel⟩

/-- Both are told as they stand; as an integer `1-` is nothing. -/
example : (get b!"{\"a\":[3,1-]" b!"a" >>= fun v => v.get b!"1" >>= fun w => w.str) = .ok b!"1-" ∧
    (get b!"{\"a\":[3,1-]" b!"a" >>= fun v => v.get b!"1" >>= fun w => w.i64) = .ok 0 ∧
    (get b!"{\"a\" [\"x\ty\",1-" b!"a.0" >>= Value.str) = .ok b!"x\ty" :=
  ⟨by decide +kernel, by decide +kernel, by decide +kernel⟩

/-- `each` on an array that is closed by a brace and lacks a comma, stopped at the string. -/
example : (parse b!"[1- \"s\" 2}" >>= fun v => v.each (fun (st : List Bytes) _ e => .ok (st ++ [e.json], e.kind != .string)) []) =
    .ok [b!"1-", b!"\"s\""] := by decide +kernel

/-- C75: for an open string at the beginning of the text the kind is not that of the empty text. -/
theorem C75_open_string : Parsed b!"\"abc" [] ∧ ¬ ToldBy (parse b!"\"abc") [] := by
  refine ⟨(C73_parse _ _).1 (ok_of_json (by decide +kernel)), fun h => ?_⟩
  obtain ⟨v, h1, _, h2, _⟩ := h.value
  have : (parse b!"\"abc" >>= fun v => .ok v.kind) = .ok .string := by decide +kernel
  rw [h1, ok_bind, h2] at this
  cases this

end Gjson
