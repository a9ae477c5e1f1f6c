import Lean.Elab.Term
import Lean.ToExpr
/-
Shared vocabulary of the model: bytes, faults, checked indexing and slicing.
-/
namespace Gjson

/-- A Rust `&[u8]`, `&str` or `String`, as its bytes. -/
abbrev Bytes := List UInt8

/-- How a Rust execution can go wrong in the model. -/
inductive Fault where
  /-- a Rust panic: failed bounds check, slice check, `unwrap` or subtraction overflow -/
  | panic
  /-- an unchecked read (`get_unchecked`) outside the buffer: undefined behaviour -/
  | oob
  /-- the loop/recursion bound of the model ran out (a Rust loop that did not stop in time) -/
  | fuel
deriving DecidableEq, Repr

/-- Result of running a modelled Rust function. -/
abbrev Res (α : Type) := Except Fault α

instance {α : Type} [DecidableEq α] : DecidableEq (Res α) := fun a b =>
  match a, b with
  | .ok x, .ok y => if h : x = y then .isTrue (by rw [h]) else .isFalse (by intro e; cases e; exact h rfl)
  | .error x, .error y =>
    if h : x = y then .isTrue (by rw [h]) else .isFalse (by intro e; cases e; exact h rfl)
  | .ok _, .error _ => .isFalse (by intro e; cases e)
  | .error _, .ok _ => .isFalse (by intro e; cases e)

/-- `panic!` -/
def rpanic {α : Type} : Res α := .error .panic
/-- out of fuel -/
def outOfFuel {α : Type} : Res α := .error .fuel

/-- Rust `b[i]`: checked index. -/
def idx (b : Bytes) (i : Nat) : Res UInt8 :=
  match b[i]? with
  | some c => .ok c
  | none => .error .panic

/-- Rust `*b.get_unchecked(i)`: unchecked index, `oob` outside. -/
def idxUnchecked (b : Bytes) (i : Nat) : Res UInt8 :=
  match b[i]? with
  | some c => .ok c
  | none => .error .oob

/-- The bytes of `b[s..e]` when in range (total helper used by `slice`). -/
def sub (b : Bytes) (s e : Nat) : Bytes := (b.drop s).take (e - s)

/-- Rust `&b[s..e]`: panics unless `s <= e <= b.len()`. -/
def slice (b : Bytes) (s e : Nat) : Res Bytes :=
  if s ≤ e ∧ e ≤ b.length then .ok (sub b s e) else .error .panic

/-- Rust `&b[s..]`: panics unless `s <= b.len()`. -/
def sliceFrom (b : Bytes) (s : Nat) : Res Bytes :=
  if s ≤ b.length then .ok (b.drop s) else .error .panic

section Syntax
open Lean Elab Term

/-- `b!"text"` is the literal list of the UTF-8 bytes of `text`. -/
elab:max "b!" s:str : term => do
  return toExpr s.getString.toUTF8.toList

/-- `c! 'x'` is the byte of the ASCII character `x`. -/
macro:max "c!" c:char : term => do
  let n := c.getChar.toNat
  `(($(⟨Syntax.mkNumLit (toString n)⟩) : UInt8))

end Syntax

end Gjson
