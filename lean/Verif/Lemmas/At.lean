import Verif.Basic
/-
Helper lemmas: positions in a text described by the suffix that starts there.
-/
namespace Gjson

@[simp] theorem ok_bind {α β : Type} (a : α) (f : α → Res β) : ((Except.ok a : Res α) >>= f) = f a := rfl
@[simp] theorem error_bind {α β : Type} (e : Fault) (f : α → Res β) :
    ((Except.error e : Res α) >>= f) = .error e := rfl
@[simp] theorem rpanic_bind {α β : Type} (f : α → Res β) : ((rpanic : Res α) >>= f) = rpanic := rfl
@[simp] theorem fuel_bind {α β : Type} (f : α → Res β) : ((outOfFuel : Res α) >>= f) = outOfFuel := rfl
@[simp] theorem pure_eq_ok {α : Type} (a : α) : (pure a : Res α) = .ok a := rfl

theorem bind_eq_ok {α β : Type} {x : Res α} {f : α → Res β} {b : β} :
    (x >>= f) = .ok b ↔ ∃ a, x = .ok a ∧ f a = .ok b := by
  cases x <;> simp

/-- Index `i` of `json` is inside or at the end, and `s` is what follows. -/
def At (json : Bytes) (i : Nat) (s : Bytes) : Prop := i ≤ json.length ∧ json.drop i = s

theorem At.mk' {json : Bytes} {i : Nat} (h : i ≤ json.length) : At json i (json.drop i) := ⟨h, rfl⟩

theorem At.zero (json : Bytes) : At json 0 json := ⟨Nat.zero_le _, rfl⟩

theorem At.of_pre (pre s : Bytes) : At (pre ++ s) pre.length s := ⟨by simp, by simp⟩

theorem At.len {json : Bytes} {i : Nat} {s : Bytes} (h : At json i s) : json.length = i + s.length := by
  have := h.1; have := h.2; subst this; simp; omega

theorem At.pre {json : Bytes} {i : Nat} {s : Bytes} (h : At json i s) :
    ∃ p, json = p ++ s ∧ p.length = i :=
  ⟨json.take i, by rw [← h.2]; simp, by simp; have := h.1; omega⟩

theorem At.append {json : Bytes} {i : Nat} {t r : Bytes} (h : At json i (t ++ r)) :
    At json (i + t.length) r := by
  refine ⟨by have := h.len; simp at this; omega, ?_⟩
  rw [← List.drop_drop, h.2]; simp

theorem At.append' {json : Bytes} {i j : Nat} {t r : Bytes} (h : At json i (t ++ r))
    (hj : j = i + t.length) : At json j r := hj ▸ h.append

theorem At.cons {json : Bytes} {i : Nat} {c : UInt8} {r : Bytes} (h : At json i (c :: r)) :
    At json (i + 1) r := At.append (t := [c]) h

theorem At.lt {json : Bytes} {i : Nat} {c : UInt8} {r : Bytes} (h : At json i (c :: r)) :
    i < json.length := by have := h.len; simp at this; omega

theorem At.ne {json : Bytes} {i : Nat} {c : UInt8} {r : Bytes} (h : At json i (c :: r)) :
    i ≠ json.length := by have := h.lt; omega

theorem At.nil {json : Bytes} {i : Nat} (h : At json i []) : i = json.length := by
  have := h.len; simp at this; omega

theorem At.getElem? {json : Bytes} {i : Nat} {c : UInt8} {r : Bytes} (h : At json i (c :: r)) :
    json[i]? = some c := by
  have := h.2
  have h2 : (json.drop i)[0]? = some c := by rw [this]; rfl
  simpa using h2

theorem At.idx {json : Bytes} {i : Nat} {c : UInt8} {r : Bytes} (h : At json i (c :: r)) :
    idx json i = .ok c := by
  unfold Gjson.idx; rw [h.getElem?]

theorem At.idxUnchecked {json : Bytes} {i : Nat} {c : UInt8} {r : Bytes} (h : At json i (c :: r)) :
    idxUnchecked json i = .ok c := by
  unfold Gjson.idxUnchecked; rw [h.getElem?]

theorem At.slice {json : Bytes} {i : Nat} {t r : Bytes} (h : At json i (t ++ r)) :
    slice json i (i + t.length) = .ok t := by
  unfold Gjson.slice
  have := h.append.1
  rw [if_pos ⟨by omega, this⟩]
  unfold sub; rw [h.2]; simp

theorem At.slice' {json : Bytes} {i j : Nat} {t r : Bytes} (h : At json i (t ++ r))
    (hj : j = i + t.length) : Gjson.slice json i j = .ok t := hj ▸ h.slice

theorem At.sliceFrom {json : Bytes} {i : Nat} {s : Bytes} (h : At json i s) :
    sliceFrom json i = .ok s := by
  unfold Gjson.sliceFrom; rw [if_pos h.1, h.2]

theorem At.inj {json : Bytes} {i : Nat} {s t : Bytes} (h : At json i s) (h' : At json i t) : s = t :=
  h.2.symm.trans h'.2

theorem At.cases {json : Bytes} {i : Nat} (h : i ≤ json.length) :
    (i = json.length ∧ At json i []) ∨ ∃ c r, At json i (c :: r) := by
  cases hs : json.drop i with
  | nil =>
    left
    have : At json i [] := ⟨h, hs⟩
    exact ⟨this.nil, this⟩
  | cons c r => exact .inr ⟨c, r, h, hs⟩

theorem At.infix {json : Bytes} {i : Nat} {t r : Bytes} (h : At json i (t ++ r)) : t <:+: json := by
  obtain ⟨p, hp, _⟩ := h.pre
  exact ⟨p, r, by rw [hp]; simp⟩

end Gjson
