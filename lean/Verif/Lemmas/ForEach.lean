import Verif.Lemmas.Leaf
import Verif.Model.Search
/-
`parse` and `for_each` as functions on suffixes.
-/
namespace Gjson

/-! ### parse -/

/-- `parse` from index `i` on. -/
def pParse (i : Nat) : Bytes → Value
  | [] => Value.default
  | c :: r =>
    if c ≤ c! ' ' then pParse (i + 1) r
    else if c = c! '{' then mkVal (c :: r) (some i) (INFO_OBJECT ||| INFO_FOG)
    else if c = c! '[' then mkVal (c :: r) (some i) (INFO_ARRAY ||| INFO_FOG)
    else if c = c! 't' ∨ c = c! 'f' ∨ c = c! 'n' ∨ c = c! '"'
        ∨ (c! '0' ≤ c ∧ c ≤ c! '9') ∨ c = c! '-' then tokVal i (leafTok (c :: r)).1
    else Value.default

theorem parseLoop_at {json : Bytes} : ∀ (n i : Nat) (s : Bytes), At json i s → s.length < n →
    parseLoop json n i = .ok (pParse i s)
  | 0, _, _, _, h => by omega
  | n + 1, i, [], h, _ => by
    unfold parseLoop pParse
    rw [if_neg (by have := h.nil; omega)]
  | n + 1, i, c :: r, h, hl => by
    unfold parseLoop pParse
    rw [if_pos h.lt, h.idx]
    simp only [ok_bind]
    split
    · exact parseLoop_at n (i + 1) r h.cons (by simp at hl; omega)
    split
    · rw [h.sliceFrom]; exact jsonFromSlice_eq _ _ _
    split
    · rw [h.sliceFrom]; exact jsonFromSlice_eq _ _ _
    split
    · obtain ⟨j, h1, _⟩ := procLeaf_at h
      rw [h1]; rfl
    · rfl

theorem parse_eq (json : Bytes) : parse json = .ok (pParse 0 json) :=
  parseLoop_at _ 0 json (At.zero _) (by omega)

/-! ### for_each -/

/-- The values that `for_each` meets from index `i` on. -/
def toks (i : Nat) (s : Bytes) : List Value :=
  match s with
  | [] => []
  | c :: r =>
    if c ≤ c! ' ' ∨ c = c! ',' ∨ c = c! ':' then toks (i + 1) r
    else if c = c! '}' ∨ c = c! ']' then []
    else if (tokVal i (leafTok (c :: r)).1).exists then
      have := leafTok_lt (s := c :: r) (by simp)
      tokVal i (leafTok (c :: r)).1 ::
        toks (i + ((c :: r).length - (leafTok (c :: r)).2.length)) (leafTok (c :: r)).2
    else []
termination_by s.length

/-- Consecutive values as (key, value) pairs. -/
def pairUp : List Value → List (Value × Value)
  | a :: b :: r => (a, b) :: pairUp r
  | _ => []

/-- What `for_each` still has to hand to the callback. -/
def pending (kind : Kind) (index : Nat) (tmpKey : Value) (l : List Value) : List (Value × Value) :=
  if kind = .object then
    if index % 2 = 0 then pairUp l
    else match l with
      | [] => []
      | v :: t => (tmpKey, v) :: pairUp t
  else l.map (Value.default, ·)

/-- Feed the callback until it says stop. -/
def runFold {σ : Type} (f : σ → Value → Value → Res (σ × Bool)) : σ → List (Value × Value) → Res σ
  | s, [] => .ok s
  | s, (k, v) :: r => do
    let (s, more) ← f s k v
    if more then runFold f s r else .ok s

theorem toks_nil (i : Nat) : toks i [] = [] := by rw [toks.eq_def]

theorem toks_skip {i : Nat} {c : UInt8} {r : Bytes} (h : c ≤ c! ' ' ∨ c = c! ',' ∨ c = c! ':') :
    toks i (c :: r) = toks (i + 1) r := by
  conv => { lhs; rw [toks.eq_def] }
  simp only
  rw [if_pos h]

theorem toks_close {i : Nat} {c : UInt8} {r : Bytes} (h : c = c! '}' ∨ c = c! ']') :
    toks i (c :: r) = [] := by
  rw [toks.eq_def]
  simp only
  rw [if_neg (by rcases h with rfl | rfl <;> decide), if_pos h]

theorem toks_tok {i : Nat} {c : UInt8} {r : Bytes} (h1 : ¬ (c ≤ c! ' ' ∨ c = c! ',' ∨ c = c! ':'))
    (h2 : ¬ (c = c! '}' ∨ c = c! ']')) :
    toks i (c :: r) = if (tokVal i (leafTok (c :: r)).1).exists then
      tokVal i (leafTok (c :: r)).1 ::
        toks (i + ((c :: r).length - (leafTok (c :: r)).2.length)) (leafTok (c :: r)).2 else [] := by
  conv => { lhs; rw [toks.eq_def] }
  simp only
  rw [if_neg h1, if_neg h2]

theorem forEachLoop_at {σ : Type} {json : Bytes} {kind : Kind} {f : σ → Value → Value → Res (σ × Bool)} :
    ∀ (n i index : Nat) (tmpKey : Value) (st : σ) (s : Bytes), At json i s → s.length < n →
      ∃ j, forEachLoop json kind f n i index tmpKey st =
        (runFold f st (pending kind index tmpKey (toks i s)) >>= fun st => .ok (st, j))
  | 0, _, _, _, _, _, _, h => by omega
  | n + 1, i, index, tmpKey, st, [], h, _ => by
    unfold forEachLoop
    rw [if_neg (by have := h.nil; omega), toks_nil]
    refine ⟨i, ?_⟩
    unfold pending
    split
    · split <;> simp [pairUp, runFold]
    · simp [runFold]
  | n + 1, i, index, tmpKey, st, c :: r, h, hl => by
    have hend : runFold f st (pending kind index tmpKey []) = .ok st := by
      unfold pending
      split
      · split <;> simp [pairUp, runFold]
      · simp [runFold]
    unfold forEachLoop
    rw [if_pos h.lt, h.idx]
    simp only [ok_bind]
    by_cases c1 : c ≤ c! ' ' ∨ c = c! ',' ∨ c = c! ':'
    · rw [if_pos c1, toks_skip c1]
      exact forEachLoop_at n (i + 1) index tmpKey st r h.cons (by simp at hl; omega)
    rw [if_neg c1]
    by_cases c2 : c = c! '}' ∨ c = c! ']'
    · rw [if_pos c2, toks_close c2]
      exact ⟨i + 1, by rw [hend]; rfl⟩
    rw [if_neg c2, toks_tok c1 c2]
    obtain ⟨j, h1, h2⟩ := procLeaf_at h
    rw [h1]
    simp only [ok_bind]
    have hlt := leafTok_lt (s := c :: r) (by simp)
    have hl2 : (leafTok (c :: r)).2.length < n := by simp only [List.length_cons] at hl hlt ⊢; omega
    by_cases c3 : (tokVal i (leafTok (c :: r)).1).exists = true
    · rw [if_pos c3, if_pos c3]
      have hj : j = i + ((c :: r).length - (leafTok (c :: r)).2.length) := by
        have e1 := h.len
        have e2 := h2.len
        omega
      rw [← hj]
      by_cases c4 : kind = .object
      · rw [if_pos c4]
        by_cases c5 : index % 2 = 0
        · rw [if_pos c5]
          have hp : ∀ v l, pending kind index tmpKey (v :: l) = pending kind (index + 1) v l := by
            intro v l
            unfold pending
            rw [if_pos c4, if_pos c4, if_pos c5, if_neg (by omega)]
            cases l <;> simp [pairUp]
          rw [hp]
          exact forEachLoop_at n j (index + 1) _ st _ h2 hl2
        · rw [if_neg c5]
          have hp : ∀ v l, pending kind index tmpKey (v :: l) =
              (tmpKey, v) :: pending kind (index + 1) Value.default l := by
            intro v l
            unfold pending
            rw [if_pos c4, if_pos c4, if_neg c5, if_pos (by omega)]
          rw [hp]
          simp only [runFold]
          cases hf : f st tmpKey (tokVal i (leafTok (c :: r)).1) with
          | error e => exact ⟨0, rfl⟩
          | ok x =>
            obtain ⟨st', more⟩ := x
            simp only [ok_bind]
            cases more
            · exact ⟨j, rfl⟩
            · exact forEachLoop_at n j (index + 1) _ st' _ h2 hl2
      · rw [if_neg c4]
        have hp : ∀ v l k, pending kind k tmpKey (v :: l) =
            (Value.default, v) :: pending kind (index + 1) tmpKey l := by
          intro v l k
          unfold pending
          rw [if_neg c4, if_neg c4]
          rfl
        rw [hp]
        simp only [runFold]
        cases hf : f st Value.default (tokVal i (leafTok (c :: r)).1) with
        | error e => exact ⟨0, rfl⟩
        | ok x =>
          obtain ⟨st', more⟩ := x
          simp only [ok_bind]
          cases more
          · exact ⟨j, rfl⟩
          · exact forEachLoop_at n j (index + 1) _ st' _ h2 hl2
    · rw [if_neg c3, if_neg c3]
      rcases leafTok_split (s := c :: r) (by simp) with ⟨v, info, g1, g2, _⟩ | ⟨g1, _⟩
      · rw [g1] at c3; simp [tokVal, g2] at c3
      · rw [g1] at h2
        have := forEachLoop_at (f := f) (kind := kind) n j index tmpKey st [] h2 (by rw [List.length_nil]; omega)
        rwa [toks_nil] at this

/-- The pairs handed to the callback of `for_each`. -/
def eachPairs (kind : Kind) (l : List Value) : List (Value × Value) :=
  if kind = .object then pairUp l else l.map (Value.default, ·)

theorem pending_zero (kind : Kind) (k : Value) (l : List Value) : pending kind 0 k l = eachPairs kind l := by
  unfold pending eachPairs; simp

/-- The values met by `for_each` from index `i`. -/
def eachToks (i : Nat) (lines : Bool) (s : Bytes) : List Value :=
  if lines then toks i s else toks (i + 1) (s.drop 1)

theorem forEach_at {σ : Type} {json : Bytes} {kind : Kind} {f : σ → Value → Value → Res (σ × Bool)}
    {i : Nat} {s : Bytes} (lines : Bool) (st : σ) (h : At json i s) :
    ∃ j, forEach json i lines kind f st =
      (runFold f st (eachPairs kind (eachToks i lines s)) >>= fun st => .ok (st, j)) := by
  unfold forEach eachToks
  cases s with
  | nil =>
    rw [if_pos h.nil]
    refine ⟨i, ?_⟩
    cases lines <;> simp [toks_nil, eachPairs, runFold, pairUp]
  | cons c r =>
    rw [if_neg h.ne]
    have hlen := h.len
    cases lines
    · have := forEachLoop_at (kind := kind) (f := f) (json.length + 1) (i + 1) 0 Value.default st r h.cons
        (by simp at hlen; omega)
      rw [pending_zero] at this
      simpa using this
    · have := forEachLoop_at (kind := kind) (f := f) (json.length + 1) i 0 Value.default st (c :: r) h
        (by omega)
      rw [pending_zero] at this
      simpa using this

end Gjson
