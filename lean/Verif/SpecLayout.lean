import Verif.SpecDoc
/-
The layout of formatted JSON: one member or element per line, indented by its depth,
with arrays on one line where they fit.
-/
namespace Gjson.Spec

/-- The options of a layout. -/
structure Style where
  width : Int
  pfx : Bytes
  indent : Bytes

/-- `n` copies of a text. -/
def copies (t : Bytes) : Nat → Bytes
  | 0 => []
  | n + 1 => t ++ copies t n

/-- What stands at the start of a line inside of `n` arrays or objects. -/
def Style.pad (s : Style) (n : Nat) : Bytes := s.pfx ++ copies s.indent n

/-- Lines separated by commas. -/
def commaLines : List Bytes → Bytes
  | [] => []
  | [p] => p
  | p :: q :: r => p ++ (b!",\n" ++ commaLines (q :: r))

/-- An array or object inside of `n` others that is not on one line. -/
def Style.block (s : Style) (n : Nat) (o c : UInt8) : List Bytes → Bytes
  | [] => [o, c]
  | items => o :: c! '\n' :: (commaLines (items.map fun p => s.pad (n + 1) ++ p) ++ c! '\n' :: (s.pad n ++ [c]))

mutual
/-- A document on one line, if it has no objects. -/
def Doc.line : Doc → Option Bytes
  | .leaf t => some t
  | .arr es => (lineElems es).map fun p => c! '[' :: (p ++ [c! ']'])
  | .obj _ => none
/-- The elements of an array on one line. -/
def lineElems : List Doc → Option Bytes
  | [] => some []
  | [d] => d.line
  | d :: e :: r => d.line.bind fun p => (lineElems (e :: r)).map fun q => p ++ (b!", " ++ q)
end

/-- `p` is short enough to follow `col` bytes on a line. -/
def Style.Fits (s : Style) (col : Nat) (p : Bytes) : Prop :=
  s.width - col > 3 ∧ (p.length : Int) ≤ s.width - col
instance (s : Style) (col : Nat) (p : Bytes) : Decidable (s.Fits col p) := by unfold Style.Fits; infer_instance

mutual
/-- The layout of a document inside of `n` arrays and objects, where `col` bytes come
before it on its line. An array goes on one line if it has no objects and fits. -/
def Doc.layout (s : Style) (n col : Nat) : Doc → Bytes
  | .leaf t => t
  | .arr es =>
    match (Doc.arr es).line with
    | some p => if s.Fits col p then p else s.block n (c! '[') (c! ']') (layElems s n ((s.pad (n + 1)).length + 1) es)
    | none => s.block n (c! '[') (c! ']') (layElems s n ((s.pad (n + 1)).length + 1) es)
  | .obj ms => s.block n (c! '{') (c! '}') (layMembers s n ms)
/-- The elements of an array. In front of the first element the line break is counted
as part of the line. -/
def layElems (s : Style) (n col : Nat) : List Doc → List Bytes
  | [] => []
  | d :: r => d.layout s (n + 1) col :: layElems s n (s.pad (n + 1)).length r
/-- The members of an object; the line break is counted as part of the line. -/
def layMembers (s : Style) (n : Nat) : List (Bytes × Doc) → List Bytes
  | [] => []
  | (k, d) :: r => (k ++ (b!": " ++ d.layout s (n + 1) ((s.pad (n + 1)).length + k.length + 3))) :: layMembers s n r
end

/-! ### Documents that are nested too deep

The printer gives up at the first array or object inside of `k` others: from there to the
end of the text it leaves out all whitespace. -/

/-- A document without whitespace. -/
def Doc.tight (d : Doc) : Bytes := d.toks.flatten

/-- The further elements and the end of an array without whitespace. -/
def restElems : List Doc → Bytes
  | [] => b!"]"
  | d :: r => c! ',' :: (d.tight ++ restElems r)

/-- The further members and the end of an object without whitespace. -/
def restMembers : List (Bytes × Doc) → Bytes
  | [] => b!"}"
  | (k, d) :: r => c! ',' :: (k ++ c! ':' :: (d.tight ++ restMembers r))

mutual
/-- A document that is nested more than `k` deep on one line, together with the rest of
the text, if there are no objects before the place where the printer gives up. -/
def Doc.cutLine : Nat → Bytes → Doc → Option Bytes
  | _, _, .leaf _ => none
  | 0, rest, .arr es => some ((Doc.arr es).tight ++ rest)
  | 0, rest, .obj ms => some ((Doc.obj ms).tight ++ rest)
  | k + 1, rest, .arr es => (cutLineElems k rest es).map fun p => c! '[' :: p
  | _ + 1, _, .obj _ => none
/-- The elements of an array on one line, one of them nested more than `k` deep. -/
def cutLineElems : Nat → Bytes → List Doc → Option Bytes
  | _, _, [] => none
  | k, rest, d :: r =>
    if d.height ≤ k then d.line.bind fun p => (cutLineElems k rest r).map fun q => p ++ (b!", " ++ q)
    else d.cutLine k (restElems r ++ rest)
end

mutual
/-- The layout of a document that is nested more than `k` deep, together with the rest of
the text; `b` says whether keys are sorted. The arrays and objects around the place where
the printer gives up are not sorted. -/
def Doc.cut (s : Style) (b : Bool) (n col : Nat) : Nat → Bytes → Doc → Bytes
  | _, rest, .leaf t => t ++ rest
  | 0, rest, .arr es => (Doc.arr es).tight ++ rest
  | 0, rest, .obj ms => (Doc.obj ms).tight ++ rest
  | k + 1, rest, .arr es =>
    match (Doc.arr es).cutLine (k + 1) rest with
    | some p => if s.Fits col p then p else c! '[' :: cutElems s b n ((s.pad (n + 1)).length + 1) k rest es
    | none => c! '[' :: cutElems s b n ((s.pad (n + 1)).length + 1) k rest es
  | k + 1, rest, .obj ms => c! '{' :: cutMembers s b n k rest ms
/-- The elements of an array, one of them nested more than `k` deep. -/
def cutElems (s : Style) (b : Bool) (n col : Nat) : Nat → Bytes → List Doc → Bytes
  | _, rest, [] => rest
  | k, rest, d :: r =>
    if d.height ≤ k then c! '\n' :: (s.pad (n + 1) ++ ((if b then d.sort else d).layout s (n + 1) col ++
      c! ',' :: cutElems s b n (s.pad (n + 1)).length k rest r))
    else c! '\n' :: (s.pad (n + 1) ++ d.cut s b (n + 1) col k (restElems r ++ rest))
/-- The members of an object, one of them nested more than `k` deep. -/
def cutMembers (s : Style) (b : Bool) (n : Nat) : Nat → Bytes → List (Bytes × Doc) → Bytes
  | _, rest, [] => rest
  | k, rest, (key, d) :: r =>
    if d.height ≤ k then c! '\n' :: (s.pad (n + 1) ++ (key ++ (b!": " ++
      ((if b then d.sort else d).layout s (n + 1) ((s.pad (n + 1)).length + key.length + 3) ++ c! ',' :: cutMembers s b n k rest r))))
    else c! '\n' :: (s.pad (n + 1) ++ (key ++ (b!": " ++
      d.cut s b (n + 1) ((s.pad (n + 1)).length + key.length + 3) k (restMembers r ++ rest))))
end

/-- The text of a document whose printer gives up inside of `k` arrays and objects. -/
def Doc.laid (s : Style) (b : Bool) (k : Nat) (d : Doc) : Bytes :=
  if d.height ≤ k then (if b then d.sort else d).layout s 0 s.pfx.length else d.cut s b 0 s.pfx.length k []

end Gjson.Spec
