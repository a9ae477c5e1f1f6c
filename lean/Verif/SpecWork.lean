import Verif.SpecDepth
/-
How often a search can look into objects.
-/
namespace Gjson.Spec

/-- The number of ways to choose at most `k` of `m` things. -/
def choices : Nat → Nat → Nat
  | 0, _ => 1
  | _ + 1, 0 => 1
  | m + 1, k + 1 => choices m k + choices m (k + 1)

/-- How many dots a path has. -/
def dots (path : Bytes) : Nat := path.countP fun c => c = c! '.'

/-- `{"a":{"a":…{"a":{}}…}}` with `m` members, one inside the other. -/
def nest : Nat → Bytes
  | 0 => b!"{}"
  | m + 1 => b!"{\"a\":" ++ nest m ++ b!"}"

/-- `a.a.….a.b` with `k` dots. -/
def chain : Nat → Bytes
  | 0 => b!"b"
  | k + 1 => b!"a." ++ chain k

end Gjson.Spec
