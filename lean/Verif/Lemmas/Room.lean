import Verif.Lemmas.Within
import Verif.Lemmas.Depth
/-
A limit on the nesting of the calls of `get` either is exceeded or makes no difference.
-/
namespace Gjson

/-- Goes through a `do` block. -/
macro "climb" : tactic => `(tactic| repeat' first
  | with_reducible exact Above.refl _
  | with_reducible apply_assumption
  | with_reducible refine Above.ite ?_ ?_
  | with_reducible refine Above.bind ?_ fun _ => ?_)

theorem forEachLoop_above {σ : Type} {json : Bytes} {kind : Kind} {f g : σ → Value → Value → Res (σ × Bool)} (h : ∀ st k e, Above (f st k e) (g st k e)) :
    ∀ n i index key st, Above (forEachLoop json kind f n i index key st) (forEachLoop json kind g n i index key st)
  | 0, _, _, _, _ => .refl _
  | n + 1, i, index, key, st => by
    have ih := forEachLoop_above (json := json) (kind := kind) h n
    unfold forEachLoop
    climb

theorem forEach_above {σ : Type} {json : Bytes} {kind : Kind} {i : Nat} {lines : Bool} {f g : σ → Value → Value → Res (σ × Bool)} (h : ∀ st k e, Above (f st k e) (g st k e))
    (st : σ) : Above (forEach json i lines kind f st) (forEach json i lines kind g st) := by
  have := forEachLoop_above (json := json) (kind := kind) h
  unfold forEach
  climb

theorem each_above {σ : Type} {v : Value} {f g : σ → Value → Value → Res (σ × Bool)} (h : ∀ st k e, Above (f st k e) (g st k e))
    (st : σ) : Above (v.each f st) (v.each g st) := by
  have := @forEach_above σ (h := h)
  unfold Value.each
  climb

section
variable {rec rec' : GetFn} (h : ∀ json p, Above (rec json p) (rec' json p))
include h

theorem getIn_above (v : Value) (path : Bytes) : Above (getIn rec v path) (getIn rec' v path) := by
  unfold getIn; climb

theorem elemMatches_above (lh op rhv : Bytes) (v : Value) : Above (elemMatches rec lh op rhv v) (elemMatches rec' lh op rhv v) := by
  have := getIn_above h
  unfold elemMatches; climb

theorem getArr_above (json : Bytes) (i : Nat) (lines : Bool) (path : Path) : Above (getArr rec json i lines path) (getArr rec' json i lines path) := by
  have h1 := getIn_above h
  have h2 := elemMatches_above h
  have a1 : Above (getArrChildrenWithSubpath rec json i lines path) (getArrChildrenWithSubpath rec' json i lines path) := by
    unfold getArrChildrenWithSubpath
    refine .bind (.refl _) fun x => .bind (forEach_above (fun st k e => ?_) _) fun y => ?_
    all_goals climb
  have a2 : Above (getArrChildrenWithQuerySubpath rec json i lines path) (getArrChildrenWithQuerySubpath rec' json i lines path) := by
    unfold getArrChildrenWithQuerySubpath
    refine .bind (.refl _) fun x => .bind (.refl _) fun y => .bind (forEach_above (fun st k e => ?_) _) fun z => ?_
    · refine .bind (h2 _ _ _ _) fun b => .ite ?_ (.refl _)
      split <;> climb
    · climb
  have a3 : Above (getArrChildWithQuery rec json i lines path) (getArrChildWithQuery rec' json i lines path) := by
    unfold getArrChildWithQuery
    refine .bind (.refl _) fun x => .bind (forEach_above (fun st k e => ?_) _) fun y => ?_
    all_goals climb
  unfold getArr
  split <;> climb

theorem modFlattenN_above (arg : Bytes) : ∀ (n : Nat) (json : Bytes), Above (modFlattenN rec n json arg) (modFlattenN rec' n json arg)
  | 0, _ => .refl _
  | n + 1, json => by
    have ih := modFlattenN_above arg n
    unfold modFlattenN
    refine .bind (.refl _) fun r => .ite (.refl _) (.bind (h _ _) fun d => .bind (.refl _) fun deep => .bind (each_above (fun st k e => ?_) _) fun x => .refl _)
    climb

theorem modExec_above (json : Bytes) (path : Path) : Above (modExec rec json path) (modExec rec' json path) := by
  have key : ∀ name json arg, Above (modApply rec name json arg) (modApply rec' name json arg) := by
    intro name json arg
    have h1 : Above (modPretty rec json arg) (modPretty rec' json arg) := by unfold modPretty; climb
    have h2 : Above (modFlatten rec json arg) (modFlatten rec' json arg) := modFlattenN_above h _ _ _
    have h3 : Above (modJoin rec json arg) (modJoin rec' json arg) := by unfold modJoin; climb
    unfold modApply
    climb
  unfold modExec
  climb

omit h in
theorem eachComp_above {σ : Type} {path : Bytes} {f g : σ → Bytes → Bytes → Res σ} (h : ∀ st k p, Above (f st k p) (g st k p)) (st : σ) :
    Above (eachComp path f st) (eachComp path g st) := by
  have key : ∀ path n i c s st, Above (eachCompLoop path f n i c s st) (eachCompLoop path g n i c s st) := by
    intro path n
    induction n with
    | zero => intro i c s st; exact .refl _
    | succ n ih =>
      intro i c s st
      unfold eachCompLoop
      climb
  unfold eachComp
  climb

theorem multiExec_above (json : Bytes) (path : Path) : Above (multiExec rec json path) (multiExec rec' json path) := by
  unfold multiExec
  refine .bind (.refl _) fun c => .ite ?_ ?_
  · unfold execArr
    refine .bind (.refl _) fun b => .ite (.refl _) (.bind (eachComp_above (fun st k p => ?_) _) fun x => ?_)
    all_goals climb
  · unfold execObj
    refine .bind (.refl _) fun b => .ite (.refl _) (.bind (eachComp_above (fun st k p => ?_) _) fun x => ?_)
    all_goals climb

omit h in
theorem procValue_above {dive dive' : Nat → Path → Res (Option Found)} (h : ∀ i p, Above (dive i p) (dive' i p)) (json : Bytes) (i : Nat) (path : Path) (m : Bool) :
    Above (procValue dive json i path m) (procValue dive' json i path m) := by
  unfold procValue
  climb

omit h in
theorem getObjLoop_above {dive dive' : Nat → Path → Res (Option Found)} (h : ∀ i p, Above (dive i p) (dive' i p)) (json : Bytes) (path : Path) :
    ∀ n i, Above (getObjLoop dive json path n i) (getObjLoop dive' json path n i)
  | 0, _ => .refl _
  | n + 1, i => by
    have ih := getObjLoop_above h json path n
    have h1 := procValue_above h
    unfold getObjLoop
    climb

theorem objStep_above {obj obj' : Nat → Path → Res Found} (ho : ∀ i p, Above (obj i p) (obj' i p)) (json : Bytes) (i : Nat) (path : Path) :
    Above (objStep rec obj json i path) (objStep rec' obj' json i path) := by
  have h1 := getArr_above h
  unfold objStep
  refine .ite (.refl _) (.bind (.refl _) fun c => .ite (.refl _) (getObjLoop_above (fun i p => ?_) _ _ _ _))
  climb

theorem getStep_above {obj obj' : Nat → Path → Res Found} (ho : ∀ i p, Above (obj i p) (obj' i p)) (json path : Bytes) :
    Above (getStep rec obj json path) (getStep rec' obj' json path) := by
  have h1 := getArr_above h
  have h2 := getIn_above h
  have h3 := modExec_above h
  have h4 := multiExec_above h
  have h5 : ∀ p n i, Above (startStep rec obj json p n i) (startStep rec' obj' json p n i) := by
    intro p n
    induction n with
    | zero => intro i; exact .refl _
    | succ n ih => intro i; unfold startStep; climb
  unfold getStep firstStep
  climb
end

theorem within_above : ∀ n m, n ≤ m → (∀ json path, Above (getWithin n json path) (getWithin m json path)) ∧
    ∀ json i path, Above (objWithin n json i path) (objWithin m json i path)
  | 0, m, _ => by
    constructor
    · intro json path; left; rw [getWithin]
    · intro json i path; left; rw [objWithin]
  | n + 1, 0, h => by omega
  | n + 1, m + 1, h => by
    obtain ⟨h1, h2⟩ := within_above n m (by omega)
    constructor
    · intro json path
      rw [getWithin_succ, getWithin_succ]
      exact getStep_above h1 (h2 json) json path
    · intro json i path
      rw [objWithin_succ, objWithin_succ]
      exact objStep_above h1 (h2 json) json i path

/-- A limit that is not hit makes no difference. -/
theorem getWithin_above (n : Nat) (json path : Bytes) : getWithin n json path = .error .fuel ∨ getWithin n json path = get json path := by
  rcases (within_above n (n + path.length + 2) (by omega)).1 json path with h | h
  · exact .inl h
  · right; rw [← h, getWithin_eq _ _ _ (by omega)]

end Gjson
