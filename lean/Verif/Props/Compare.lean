import Verif.SpecQuery
import Verif.Props.Query
import Verif.Lemmas.Float
/-
C15: what the operators of a query mean.

`queryMatches v op rh` is the decision for one element: `v` is the value found, `rh`
the right hand side as written in the path.
-/
namespace Gjson
open Spec

/-- The content of the right hand side: a string literal stands for its decoded
content, anything else for itself. The empty literal `""` is excluded, see
`C15_empty_false`. -/
def Operand (rh r : Bytes) : Prop :=
  (StrLit rh ∧ rh ≠ b!"\"\"" ∧ KeyIs rh r) ∨ ((∀ c ∈ rh.head?, c ≠ c! '"') ∧ r = rh)

/-- A text that does not ask for a comparison by truth value (`~true`, `~false`). -/
def NoTilde (r : Bytes) : Prop := ∀ c ∈ r.head?, c ≠ c! '~'

theorem queryRpv_operand {rh r : Bytes} (h : Operand rh r) : queryRpv rh = .ok r := by
  unfold queryRpv
  rcases h with ⟨⟨b, hb, rfl⟩, hne, hk⟩ | ⟨h, rfl⟩
  · rw [keyIs_lit hb] at hk
    subst hk
    have hbl : b ≠ [] := by rintro rfl; exact hne rfl
    have hl : (c! '"' :: (b ++ [c! '"'])).length > 2 := by
      have := List.length_pos_iff.2 hbl
      simp; omega
    rw [if_pos hl]
    have hA : At (c! '"' :: (b ++ [c! '"'])) 0 (c! '"' :: (b ++ [c! '"'])) := At.zero _
    have hB : At (c! '"' :: (b ++ [c! '"'])) (b.length + 1) [c! '"'] := hA.cons.append' (by omega)
    rw [hA.idx, show (c! '"' :: (b ++ [c! '"'])).length - 1 = b.length + 1 by simp, hB.idx]
    simp only [ok_bind]
    rw [if_pos ⟨trivial, trivial⟩]
    split
    · rw [unescape_eq, unescQ_quoted]
    · rename_i hm
      rw [hA.cons.slice' (t := b) (by omega), unesc_body hb (by simp at hm; exact hm)]
  · split
    · cases r with
      | nil => simp at *
      | cons c q =>
        rw [(At.zero (c :: q)).idx]
        obtain ⟨y, hy⟩ := idx_ok (b := c :: q) (i := (c :: q).length - 1) (by simp)
        rw [hy]
        simp only [ok_bind]
        rw [if_neg (by intro hc; exact h c (by simp) hc.1)]
    · rfl

theorem queryMatches_plain {rh r : Bytes} (h : Operand rh r) (ht : NoTilde r) (v : Value) (op : Bytes) :
    queryMatches v op rh = queryCompare v op r := by
  unfold queryMatches
  rw [queryRpv_operand h]
  simp only [ok_bind]
  cases r with
  | nil => rfl
  | cons c q => simp only; rw [if_neg (ht c (by simp))]

/-- C15: a string is compared by its decoded content, byte by byte; `%` matches it
against the right hand side as a pattern (as far as C16 holds). -/
theorem C15_string_partial {v : Value} {s rh r : Bytes} (hk : v.kind = .string) (he : v.exists = true) (hs : v.str = .ok s)
    (hr : Operand rh r) (ht : NoTilde r) (op : Op) (hq : op = .like ∨ op = .unlike → escapesQuestion r = false) :
    ∃ b, queryMatches v op.name rh = .ok b ∧ (b = true ↔ op.onStrings s r) := by
  rw [queryMatches_plain hr ht]
  unfold queryCompare
  simp only [he, Bool.not_true, Bool.false_eq_true, if_false, hk, hs, ok_bind]
  have hne := cmpBytes_eq s r
  have hlt := cmpBytes_lt s r
  have hgt := cmpBytes_gt s r
  rw [if_neg (by cases op <;> simp [Op.name])]
  cases op with
  | eq => exact ⟨_, rfl, by simp [Op.onStrings]⟩
  | ne => exact ⟨_, rfl, by simp [Op.onStrings]⟩
  | lt => exact ⟨_, rfl, by simp [Op.onStrings, hlt]⟩
  | le =>
    refine ⟨_, rfl, ?_⟩
    simp only [decide_eq_true_eq, Op.onStrings, ← hlt, ← hne]
    cases cmpBytes s r <;> simp
  | gt => exact ⟨_, rfl, by simp [Op.onStrings, hgt]⟩
  | ge =>
    refine ⟨_, rfl, ?_⟩
    simp only [decide_eq_true_eq, Op.onStrings, ← hgt, ← hne]
    cases cmpBytes s r <;> simp
  | like =>
    obtain ⟨b, h1, h2⟩ := C16_pmatch_partial r s (hq (.inl rfl))
    exact ⟨b, h1, h2⟩
  | unlike =>
    obtain ⟨b, h1, h2⟩ := C16_pmatch_partial r s (hq (.inr rfl))
    refine ⟨!b, ?_, by simp [Op.onStrings, ← h2]⟩
    show (do .ok (!(← pmatch r s))) = _
    rw [h1]; rfl

/-- C15: for all operators and all right hand sides, with the patterns of the code
(`C16_pmatch_code`). -/
theorem C15_string_exact {v : Value} {s rh r : Bytes} (hk : v.kind = .string) (he : v.exists = true) (hs : v.str = .ok s)
    (hr : Operand rh r) (ht : NoTilde r) (op : Op) :
    ∃ b, queryMatches v op.name rh = .ok b ∧ (b = true ↔ op.onTexts s r) := by
  by_cases ho : op = .like ∨ op = .unlike
  · rw [queryMatches_plain hr ht]
    unfold queryCompare
    simp only [he, Bool.not_true, Bool.false_eq_true, if_false, hk, hs, ok_bind]
    rw [if_neg (by cases op <;> simp [Op.name])]
    obtain ⟨b, h1, h2⟩ := C16_pmatch_code r s
    rcases ho with rfl | rfl
    · exact ⟨b, h1, h2⟩
    · refine ⟨!b, ?_, by simp [Op.onTexts, ← h2]⟩
      show (do .ok (!(← pmatch r s))) = _
      rw [h1]; rfl
  · obtain ⟨b, h1, h2⟩ := C15_string_partial hk he hs hr ht op (fun h => absurd h ho)
    refine ⟨b, h1, h2.trans ?_⟩
    rw [not_or] at ho
    cases op <;> first | rfl | exact absurd rfl ho.1 | exact absurd rfl ho.2

/-- C15, for the six comparisons nothing is missing. -/
theorem C15_string {v : Value} {s rh r : Bytes} (hk : v.kind = .string) (he : v.exists = true) (hs : v.str = .ok s)
    (hr : Operand rh r) (ht : NoTilde r) (op : Op) (ho : op ≠ .like ∧ op ≠ .unlike) :
    ∃ b, queryMatches v op.name rh = .ok b ∧ (b = true ↔ op.onStrings s r) :=
  C15_string_partial hk he hs hr ht op (fun h => (h.elim ho.1 ho.2).elim)

/-- C15: a number is compared by its numeric value: `f64()` of the value with the
number read from the right hand side, by the IEEE comparisons. -/
theorem C15_number {v : Value} {x : F64} {rh r : Bytes} (hk : v.kind = .number) (he : v.exists = true) (hx : v.f64 = .ok x)
    (hr : Operand rh r) (ht : NoTilde r) (op : Op) :
    queryMatches v op.name rh = .ok (op.holds (x.lt (rawToF64 r)) (x.eq (rawToF64 r)) ((rawToF64 r).lt x)) := by
  rw [queryMatches_plain hr ht]
  unfold queryCompare
  simp only [he, Bool.not_true, Bool.false_eq_true, if_false, hk, hx, ok_bind]
  rw [if_neg (by cases op <;> simp [Op.name])]
  cases op <;> first | rfl | (show Except.ok _ = _; rw [F64.eq_comm' x]; rfl)

/-- C15: in particular whole numbers up to 2^53 are compared exactly. -/
theorem C15_integer {v : Value} {rh : Bytes} {m n : Int} (hk : v.kind = .number) (hj : v.json = intNumeral m)
    (hm : m.natAbs ≤ 2 ^ 53) (hn : n.natAbs ≤ 2 ^ 53) (hr : Operand rh (intNumeral n)) (op : Op) :
    queryMatches v op.name rh = .ok (op.holds (m < n) (m = n) (n < m)) := by
  have hx : v.f64 = .ok (.fin (decide (m < 0)) (m.natAbs * F64.unit)) := by
    unfold Value.f64
    rw [hk]
    simp only [hj, rawToF64_int hm]
  have hne : ∀ k, intNumeral k ≠ [] ∧ NoTilde (intNumeral k) := by
    intro k
    obtain ⟨a1, a2, _, _⟩ := numeral_spec k.natAbs
    unfold intNumeral
    split
    · refine ⟨by simp, ?_⟩
      intro c hc; simp at hc; subst hc; decide
    · refine ⟨a1, ?_⟩
      intro c hc
      have := a2 c (List.mem_of_mem_head? hc)
      unfold IsDigit at this; grind
  have he : v.exists = true := by rw [C20_exists_iff_json, hj]; exact (hne m).1
  rw [C15_number hk he hx hr (hne n).2, rawToF64_int hn, F64.lt_int, F64.eq_int, F64.lt_int]

/-- The operators that are complementary to each other. -/
def Spec.Op.complement : Op → Op
  | .eq => .ne | .ne => .eq | .lt => .ge | .ge => .lt | .le => .gt | .gt => .le | .like => .unlike | .unlike => .like

/-- C15: on strings, complementary operators give opposite answers. -/
theorem C15_complement_string {v : Value} {s rh r : Bytes} (hk : v.kind = .string) (he : v.exists = true) (hs : v.str = .ok s)
    (hr : Operand rh r) (ht : NoTilde r) (op : Op) :
    ∃ b, queryMatches v op.name rh = .ok b ∧ queryMatches v op.complement.name rh = .ok (!b) := by
  rw [queryMatches_plain hr ht, queryMatches_plain hr ht]
  unfold queryCompare
  simp only [he, Bool.not_true, Bool.false_eq_true, if_false, hk, hs, ok_bind]
  rw [if_neg (by cases op <;> simp [Op.name]), if_neg (by cases op <;> simp [Op.name, Op.complement])]
  have hl : strOp b!"%" r s = .ok (pm r s) := pmatch_eq r s
  have hu : strOp b!"!%" r s = .ok (!pm r s) := by
    show (do .ok (!(← pmatch r s))) = _
    rw [pmatch_eq]; rfl
  cases op with
  | like => exact ⟨_, hl, hu⟩
  | unlike => exact ⟨_, hu, by rw [Bool.not_not]; exact hl⟩
  | eq => exact ⟨_, rfl, by show Except.ok _ = _; congr 1; simp⟩
  | ne => exact ⟨_, rfl, by show Except.ok _ = _; congr 1; simp⟩
  | lt => exact ⟨_, rfl, by show Except.ok _ = _; congr 1; cases cmpBytes s r <;> rfl⟩
  | ge => exact ⟨_, rfl, by show Except.ok _ = _; congr 1; cases cmpBytes s r <;> rfl⟩
  | le => exact ⟨_, rfl, by show Except.ok _ = _; congr 1; cases cmpBytes s r <;> rfl⟩
  | gt => exact ⟨_, rfl, by show Except.ok _ = _; congr 1; cases cmpBytes s r <;> rfl⟩

/-- C15: and on numbers that are not NaN. -/
theorem C15_complement_number {v : Value} {x : F64} {rh r : Bytes} (hk : v.kind = .number) (he : v.exists = true)
    (hx : v.f64 = .ok x) (hr : Operand rh r) (ht : NoTilde r) (h1 : x ≠ .nan) (h2 : rawToF64 r ≠ .nan) (op : Op)
    (ho : op ≠ .like ∧ op ≠ .unlike) :
    ∃ b, queryMatches v op.name rh = .ok b ∧ queryMatches v op.complement.name rh = .ok (!b) := by
  rw [C15_number hk he hx hr ht, C15_number hk he hx hr ht]
  refine ⟨_, rfl, ?_⟩
  congr 1
  rcases F64.trichotomy h1 h2 with ⟨a, b, c⟩ | ⟨a, b, c⟩ | ⟨a, b, c⟩ <;> rw [a, b, c] <;>
    cases op <;> first | rfl | exact absurd rfl ho.1 | exact absurd rfl ho.2

/-- C15 for booleans, except `true <= true` and `false >= false`. -/
theorem C15_bool_partial {v : Value} {rh : Bytes} {x y : Bool} (hk : v.kind = if x then .true else .false)
    (he : v.exists = true) (hr : Operand rh (boolText y)) (op : Op)
    (hne : ¬ (op = .le ∧ x = true ∧ y = true) ∧ ¬ (op = .ge ∧ x = false ∧ y = false)) :
    queryMatches v op.name rh = .ok (op.holds (!x && y) (x == y) (x && !y)) := by
  have ht : NoTilde (boolText y) := by cases y <;> intro c hc <;> simp [boolText] at hc <;> subst hc <;> decide
  rw [queryMatches_plain hr ht]
  unfold queryCompare
  simp only [he, Bool.not_true, Bool.false_eq_true, if_false]
  rw [if_neg (by cases op <;> simp [Op.name]), hk]
  cases x <;> cases y <;> cases op <;>
    first
    | rfl
    | (exact absurd ⟨rfl, rfl, rfl⟩ hne.1)
    | (exact absurd ⟨rfl, rfl, rfl⟩ hne.2)

/-- C15 is false for booleans: `true <= true` and `false >= false` do not hold,
and `<=` and `>` are not complementary. -/
theorem C15_bool_false :
    (get b!"[true]" b!"#(<=true)#" >>= fun v => .ok v.json) = .ok b!"[]" ∧
    (get b!"[true]" b!"#(>true)#" >>= fun v => .ok v.json) = .ok b!"[]" ∧
    (get b!"[false]" b!"#(>=false)#" >>= fun v => .ok v.json) = .ok b!"[]" ∧
    (get b!"[true]" b!"#(>=x)#" >>= fun v => .ok v.json) = .ok b!"[true]" := by decide +kernel

/-- C15: a missing value matches nothing, unless the right hand side starts with `~`. -/
theorem C15_missing_partial {v : Value} {rh r : Bytes} (he : v.exists = false) (hr : Operand rh r) (ht : NoTilde r)
    (op : Option Op) : queryMatches v (opName op) rh = .ok false := by
  rw [queryMatches_plain hr ht]
  unfold queryCompare
  simp [he]

/-- C15 is false with `~`: a missing value matches `~false`. -/
theorem C15_missing_false : (get b!"[{\"a\":1}]" b!"#(b=~false)#" >>= fun v => .ok v.json) = .ok b!"[{\"a\":1}]" := by
  decide +kernel

/-- C15 is false for the empty literal: it is compared with its quotes, so the
empty string is not equal to it. -/
theorem C15_empty_false : (get b!"[{\"a\":\"\"}]" b!"#(a==\"\")#" >>= fun v => .ok v.json) = .ok b!"[]" := by decide +kernel

/-- C15: null, objects and arrays satisfy no comparison; every existing value
satisfies the query without operator. -/
theorem C15_other {v : Value} {rh r : Bytes} (he : v.exists = true) (hr : Operand rh r) (ht : NoTilde r) :
    queryMatches v (opName none) rh = .ok true ∧
    ((v.kind = .null ∨ v.kind = .object ∨ v.kind = .array) → ∀ op : Op, queryMatches v op.name rh = .ok false) := by
  constructor
  · rw [queryMatches_plain hr ht]
    unfold queryCompare
    simp [he, opName]
  · intro hk op
    rw [queryMatches_plain hr ht]
    unfold queryCompare
    simp only [he, Bool.not_true, Bool.false_eq_true, if_false]
    rw [if_neg (by cases op <;> simp [Op.name])]
    rcases hk with h | h | h <;> rw [h]

/-- Operands of all kinds, and values they are compared with. -/
example : Operand b!"\"a\\n\"" b!"a\n" ∧ Operand b!"-12" (intNumeral (-12)) ∧ Operand b!"true" (boolText true) ∧
    NoTilde b!"a\n" ∧ escapesQuestion b!"a*" = false :=
  ⟨.inl ⟨⟨b!"a\\n", .plain (by decide) (by decide) (by decide) (.esc (by decide) .nil), rfl⟩, by decide,
    ⟨_, rfl, by decide +kernel⟩⟩, .inr ⟨by decide, by decide⟩, .inr ⟨by decide, rfl⟩, by unfold NoTilde; decide, by decide⟩

example : ∃ v, parse b!"\"b\"" = .ok v ∧ v.kind = .string ∧ v.exists = true ∧ v.str = .ok b!"b" ∧
    queryMatches v b!">" b!"\"a\\n\"" = .ok true := ⟨_, rfl, by decide +kernel⟩

example : ∃ v, parse b!"-13" = .ok v ∧ v.kind = .number ∧ v.json = intNumeral (-13) ∧
    queryMatches v b!"<=" b!"-12" = .ok true := ⟨_, rfl, by decide +kernel⟩

end Gjson
