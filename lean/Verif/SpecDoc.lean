import Verif.Spec
/-
The tokens of a text, and JSON documents as trees.
-/
namespace Gjson.Spec

/-- The structural characters of RFC 8259. -/
def structural : List UInt8 := [c! '{', c! '}', c! '[', c! ']', c! ',', c! ':']

/-- A byte that ends a number or literal name: whitespace, structural or a quote. -/
def IsBreak (c : UInt8) : Prop := IsWs c ∨ c ∈ structural ∨ c = c! '"'
instance (c : UInt8) : Decidable (IsBreak c) := by unfold IsBreak IsWs; infer_instance

/-- Split after the closing quote of a string (whose opening quote was read); the
flag says that the next byte is escaped. -/
def strSplit (e : Bool) : Bytes → Bytes × Bytes
  | [] => ([], [])
  | c :: r =>
    if c = c! '"' ∧ e = false then ([c], r)
    else (c :: (strSplit (!e && c = c! '\\') r).1, (strSplit (!e && c = c! '\\') r).2)

theorem strSplit_le (s : Bytes) (e : Bool) : (strSplit e s).2.length ≤ s.length := by
  induction s generalizing e with
  | nil => simp [strSplit]
  | cons c r ih => unfold strSplit; split; · simp
                   · have := ih (!e && c = c! '\\'); simp; omega

/-- The tokens of a text: structural characters, strings with their quotes, and runs
of other bytes; whitespace separates tokens. -/
def tokens : Bytes → List Bytes
  | [] => []
  | c :: r =>
    if IsWs c then tokens r
    else if c = c! '"' then (c :: (strSplit false r).1) :: tokens (strSplit false r).2
    else if c ∈ structural then [c] :: tokens r
    else (c :: r.takeWhile fun c => ¬ IsBreak c) :: tokens (r.dropWhile fun c => ¬ IsBreak c)
termination_by s => s.length
decreasing_by
  · simp
  · have := strSplit_le r false; simp; omega
  · simp
  · have := (List.dropWhile_sublist (p := fun c => decide (¬ IsBreak c)) (l := r)).length_le; simp at this ⊢; omega

/-- JSON documents as trees; strings, numbers and literal names stand for their source
text, keys for the source text of the string. -/
inductive Doc
  | leaf (t : Bytes)
  | arr (es : List Doc)
  | obj (ms : List (Bytes × Doc))

mutual
/-- The tokens of a document. -/
def Doc.toks : Doc → List Bytes
  | .leaf t => [t]
  | .arr es => [c! '['] :: (elemToks es ++ [[c! ']']])
  | .obj ms => [c! '{'] :: (memToks ms ++ [[c! '}']])
/-- The tokens of the elements of an array. -/
def elemToks : List Doc → List Bytes
  | [] => []
  | [d] => d.toks
  | d :: e :: r => d.toks ++ [c! ','] :: elemToks (e :: r)
/-- The tokens of the members of an object. -/
def memToks : List (Bytes × Doc) → List Bytes
  | [] => []
  | [(k, d)] => k :: [c! ':'] :: d.toks
  | (k, d) :: e :: r => k :: [c! ':'] :: (d.toks ++ [c! ','] :: memToks (e :: r))
end

/-- `Denotes t d`: the JSON value text `t` represents the document `d`. -/
inductive Denotes : Bytes → Doc → Prop
  | leaf {t : Bytes} : IsValue t → kindOf t ≠ .object → kindOf t ≠ .array → Denotes t (.leaf t)
  | arrEmpty {w : Bytes} : Ws w → Denotes (c! '[' :: (w ++ [c! ']'])) (.arr [])
  | arr {es : List (Elem × Doc)} : es ≠ [] → (∀ e ∈ es, e.1.Wf) → (∀ e ∈ es, Denotes e.1.val e.2) →
      Denotes (c! '[' :: (elemsText (es.map Prod.fst) ++ [c! ']'])) (.arr (es.map Prod.snd))
  | objEmpty {w : Bytes} : Ws w → Denotes (c! '{' :: (w ++ [c! '}'])) (.obj [])
  | obj {ms : List (Member × Doc)} : ms ≠ [] → (∀ m ∈ ms, m.1.Wf) → (∀ m ∈ ms, Denotes m.1.val m.2) →
      Denotes (c! '{' :: (membersText (ms.map Prod.fst) ++ [c! '}'])) (.obj (ms.map fun m => (m.1.key, m.2)))

mutual
/-- How deep arrays and objects are nested. -/
def Doc.height : Doc → Nat
  | .leaf _ => 0
  | .arr es => elemHeight es + 1
  | .obj ms => memHeight ms + 1
/-- The greatest height of the elements. -/
def elemHeight : List Doc → Nat
  | [] => 0
  | d :: r => max d.height (elemHeight r)
/-- The greatest height of the members. -/
def memHeight : List (Bytes × Doc) → Nat
  | [] => 0
  | (_, d) :: r => max d.height (memHeight r)
end

/-- The source bytes between the quotes of a key. -/
def rawKey (k : Bytes) : Bytes := k.tail.dropLast

/-- Insert before the first member with the same or a greater key. -/
def insertMember (a : Bytes × Doc) : List (Bytes × Doc) → List (Bytes × Doc)
  | [] => [a]
  | b :: r => if rawKey a.1 ≤ rawKey b.1 then a :: b :: r else b :: insertMember a r

/-- Order members by key bytes; equal keys stay in source order. -/
def sortMembers : List (Bytes × Doc) → List (Bytes × Doc)
  | [] => []
  | a :: r => insertMember a (sortMembers r)

mutual
/-- Order the members of every object of a document. -/
def Doc.sort : Doc → Doc
  | .leaf t => .leaf t
  | .arr es => .arr (sortElems es)
  | .obj ms => .obj (sortMembers (sortVals ms))
/-- Sort inside every element. -/
def sortElems : List Doc → List Doc
  | [] => []
  | d :: r => d.sort :: sortElems r
/-- Sort inside every member value. -/
def sortVals : List (Bytes × Doc) → List (Bytes × Doc)
  | [] => []
  | (k, d) :: r => (k, d.sort) :: sortVals r
end

end Gjson.Spec
