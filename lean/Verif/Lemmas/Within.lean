import Verif.Model.Depth
import Verif.SpecDepth
import Verif.Lemmas.Stable
import Verif.Lemmas.Lookup
import Verif.Lemmas.Tokens
import Verif.Lemmas.UglyDoc
import Verif.Lemmas.Rules
/-
How deep the calls of `get` nest.
-/
namespace Gjson
open Spec

theorem procValue_congr {dive dive' : Nat → Path → Res (Option Found)} {path : Path} (h : path.sep = c! '.' → ∀ i, dive i path = dive' i path)
    (json : Bytes) (i : Nat) (m : Bool) : procValue dive json i path m = procValue dive' json i path m := by
  unfold procValue
  by_cases hs : path.sep = c! '.'
  · simp only [h hs]
  · simp only [hs, if_false]

theorem getObjLoop_congr {dive dive' : Nat → Path → Res (Option Found)} {path : Path} (h : path.sep = c! '.' → ∀ i, dive i path = dive' i path)
    (json : Bytes) : ∀ n i, getObjLoop dive json path n i = getObjLoop dive' json path n i
  | 0, _ => rfl
  | n + 1, i => by
    unfold getObjLoop
    simp only [procValue_congr h, getObjLoop_congr h json n]

theorem getArr_congr {n : Nat} {rec rec' : GetFn} (ha : ∀ json p, p.length < n → rec json p = rec' json p) {path : Path} (hp : Sized n path)
    (json : Bytes) (i : Nat) (lines : Bool) : getArr rec json i lines path = getArr rec' json i lines path := by
  unfold getArr
  cases hc : path.comp with
  | nil => rfl
  | cons c t =>
    simp only
    by_cases c1 : c = c! '#'
    · rw [if_pos c1, if_pos c1]
      have hlen : path.comp.length ≤ n := hp.comp (by rw [hc, c1]; rfl)
      have hg : path.sep = c! '.' → ∀ v, getIn rec v (pGroup path).1 = getIn rec' v (pGroup path).1 := by
        intro hs v
        have h1 := (pGroup_ok path hs).pre.length_le
        have h2 := hp.extra (by rw [hs]; decide)
        exact getIn_congr (fun json => ha json _ (by omega)) v
      have hm : ∀ v, elemMatches rec (pParts path).1 (pParts path).2.1 (pParts path).2.2 v =
          elemMatches rec' (pParts path).1 (pParts path).2.1 (pParts path).2.2 v := by
        intro v
        refine elemMatches_congr (fun hne json => ha json _ ?_) _ _ v
        have := (pParts_ok path).len hne
        omega
      have e1 : path.sep = c! '.' → getArrChildrenWithSubpath rec json i lines path = getArrChildrenWithSubpath rec' json i lines path := by
        intro hs
        unfold getArrChildrenWithSubpath
        simp only [nextGroup_eq, ok_bind, hg hs]
      have e2 : getArrChildrenWithQuerySubpath rec json i lines path = getArrChildrenWithQuerySubpath rec' json i lines path := by
        unfold getArrChildrenWithQuerySubpath
        simp only [queryParts_eq, nextGroup_eq, ok_bind, hm]
        by_cases hs : path.sep = c! '.'
        · simp only [hs, if_true, hg hs]
        · simp only [hs, if_false]
      have e3 : getArrChildWithQuery rec json i lines path = getArrChildWithQuery rec' json i lines path := by
        unfold getArrChildWithQuery
        simp only [queryParts_eq, ok_bind, hm]
      rw [e2, e3]
      split
      · split
        · rename_i hs; exact e1 hs
        · rfl
      · rfl
    · rw [if_neg c1, if_neg c1]

theorem getObj_succ (rec : GetFn) (json : Bytes) (d i : Nat) (path : Path) :
    getObj rec json (d + 1) i path = objStep rec (getObj rec json d) json i path := by
  rw [getObj]; rfl

/-- `get_obj` calls `get_obj` and `get` only for what follows a dot. -/
theorem objStep_congr {rec rec' : GetFn} {obj obj' : Nat → Path → Res Found} {json : Bytes} {i : Nat} {path : Path}
    (ho : path.dives = true → ∀ i, obj i (pNext path.extra) = obj' i (pNext path.extra))
    (ha : path.dives = true → ∀ i, getArr rec json i false (pNext path.extra) = getArr rec' json i false (pNext path.extra)) :
    objStep rec obj json i path = objStep rec' obj' json i path := by
  have key := getObjLoop_congr (path := path) (json := json)
    (dive := fun i path => do
      let next ← pathNext path.extra
      if !next.isModifier ∧ !next.isMultipath then do
        let c ← idx json i
        let r ← if c = c! '{' then obj i next else getArr rec json i false next
        .ok (some r)
      else .ok none)
    (dive' := fun i path => do
      let next ← pathNext path.extra
      if !next.isModifier ∧ !next.isMultipath then do
        let c ← idx json i
        let r ← if c = c! '{' then obj' i next else getArr rec' json i false next
        .ok (some r)
      else .ok none) (by
    intro hs i2
    simp only [pathNext_eq, ok_bind]
    by_cases hd : path.dives = true
    · simp only [ho hd, ha hd]
    · have : ¬ ((!(pNext path.extra).isModifier) = true ∧ (!(pNext path.extra).isMultipath) = true) := by
        intro h
        apply hd
        unfold Path.dives
        simp at h
        simp [h, hs]
      rw [if_neg this, if_neg this])
  unfold objStep
  simp only [key]

theorem getObj_congr {rec rec' : GetFn} {json : Bytes} : ∀ (d : Nat) {n i : Nat} {path : Path},
    (∀ json p, p.length < n → rec json p = rec' json p) → Sized n path → getObj rec json d i path = getObj rec' json d i path
  | 0, _, _, _, _, _ => rfl
  | d + 1, n, i, path, ha, hp => by
    rw [getObj_succ, getObj_succ]
    exact objStep_congr (fun hd i2 => getObj_congr d ha (hp.next hd)) (fun hd i2 => getArr_congr ha (hp.next hd) _ _ _)

theorem getWithin_succ (n : Nat) (json path : Bytes) :
    getWithin (n + 1) json path = getStep (getWithin n) (objWithin n json) json path := by
  rw [getWithin]

theorem objWithin_succ (n : Nat) (json : Bytes) (i : Nat) (path : Path) :
    objWithin (n + 1) json i path = objStep (getWithin n) (objWithin n json) json i path := by
  rw [objWithin]

/-- With enough room the limit is not noticed in `get_obj`. -/
theorem objWithin_eq {json : Bytes} (n : Nat) : ∀ (N d i : Nat) (p : Path),
    (∀ m, m < n → ∀ json path, path.length + 2 ≤ m → getWithin m json path = get json path) → Sized N p → N + 1 ≤ n →
    pathRank p < d → objWithin n json i p = getObj get json d i p := by
  induction n with
  | zero => intro N d i p _ _ h; omega
  | succ n ih =>
    intro N d i p hrec hp hn hd
    obtain ⟨d, rfl⟩ : ∃ e, d = e + 1 := ⟨d - 1, by omega⟩
    rw [objWithin_succ, getObj_succ]
    have hsz : p.dives = true → Sized (N - 1) (pNext p.extra) ∧ 1 ≤ N := by
      intro hdv
      have hx := hp.extra (by
        have h1 : p.sep = c! '.' := by unfold Path.dives at hdv; simp at hdv; exact hdv.1.1
        rw [h1]; decide)
      exact ⟨(pNext_ok _).sized (by omega), by omega⟩
    refine objStep_congr (fun hdv i2 => ?_) (fun hdv i2 => ?_)
    · have hrk := pathRank_next hdv
      obtain ⟨h1, h2⟩ := hsz hdv
      exact ih (N - 1) d i2 (pNext p.extra) (fun m hm => hrec m (by omega)) h1 (by omega) (by omega)
    · obtain ⟨h1, h2⟩ := hsz hdv
      exact getArr_congr (rec := getWithin n) (rec' := get) (n := N - 1) (fun json q hq => hrec n (by omega) json q (by omega)) h1 json i2 false

theorem startStep_eq {rec : GetFn} {json : Bytes} {p : Path} {obj : Nat → Path → Res Found}
    (ho : ∀ i, obj i p = getObj rec json (p.extra.length + 2) i p) : ∀ n i, startStep rec obj json p n i = getStart rec json p n i
  | 0, _ => rfl
  | n + 1, i => by
    unfold startStep getStart
    simp only [ho, startStep_eq ho n]

/-- `getStep` is the body of `get`. -/
theorem getStep_eq {rec : GetFn} {obj : Nat → Path → Res Found} {json path : Bytes}
    (ho : ∀ i, obj i (pNext (linesPrefix path).1) = getObj rec json ((pNext (linesPrefix path).1).extra.length + 2) i (pNext (linesPrefix path).1)) :
    getStep rec obj json path = getBody rec json path := by
  unfold getStep getBody firstStep getFirst Path.new
  simp only [pathNext_eq, ok_bind, startStep_eq ho]

theorem pathRank_lt (p : Path) : pathRank p < p.extra.length + 2 := by
  unfold pathRank; split <;> omega

theorem getWithin_single {path : Bytes} (key : linesPrefix path = (path, false) ∧ pathNext path = .ok ⟨path, false, false, 0, 0, []⟩ ∧
      path.head? ≠ some c! '@' ∧ path.head? ≠ some c! '#' ∧ path.head? ≠ some c! '{' ∧ path.head? ≠ some c! '[')
    (n : Nat) (json : Bytes) : getWithin (n + 2) json path = get json path := by
  rw [getWithin_succ, getStep_eq, getBody_single key _ get, ← get_eq]
  intro i
  have hp : pNext (linesPrefix path).1 = ⟨path, false, false, 0, 0, []⟩ := by
    rw [key.1]; unfold pNext; simp only [key.2.1]
  rw [hp, objWithin_succ, getObj_succ]
  have hd : (⟨path, false, false, 0, 0, []⟩ : Path).dives = false := by unfold Path.dives; simp
  exact objStep_congr (fun h => by rw [hd] at h; simp at h) (fun h => by rw [hd] at h; simp at h)

/-- Calls of `get` and `get_obj` nest at most two deeper than the path is long. -/
theorem getWithin_eq (n : Nat) : ∀ json path, path.length + 2 ≤ n → getWithin n json path = get json path := by
  induction n using Nat.strongRecOn with
  | _ n ih =>
    intro json path hn
    obtain ⟨n, rfl⟩ : ∃ m, n = m + 1 := ⟨n - 1, by omega⟩
    cases hpath : path with
    | nil =>
      obtain ⟨n, rfl⟩ : ∃ m, n = m + 1 := ⟨n - 1, by omega⟩
      exact getWithin_single (by decide) n json
    | cons c t =>
      rw [← hpath]
      have hl : 1 ≤ path.length := by rw [hpath]; simp
      have hs : Sized path.length (pNext (linesPrefix path).1) := (pNext_ok _).sized (linesPrefix_suffix path).length_le
      have hshort : ∀ json p, p.length < path.length → getWithin n json p = get json p :=
        fun json p hp => ih n (by omega) json p (by omega)
      rw [getWithin_succ, getStep_eq, getBody_congr (rec' := get), ← get_eq]
      · refine ⟨hshort, fun json p hp => ?_⟩
        obtain ⟨n, rfl⟩ : ∃ m, n = m + 2 := ⟨n - 2, by omega⟩
        exact getWithin_single (optionNames_single p hp) n json
      · intro i
        rw [getObj_congr _ hshort hs]
        exact objWithin_eq n path.length _ i _ (fun m hm => ih m (by omega)) hs (by omega) (pathRank_lt _)

theorem pNext_pipes : ∀ m, pNext (List.replicate m c! '|') = plainPath [] (if m = 0 then 0 else c! '|') (List.replicate (m - 1) c! '|')
  | 0 => rfl
  | m + 1 => pNext_plain (k := []) (by decide) (t := c! '|' :: List.replicate m c! '|') ⟨.inr rfl, rfl, rfl⟩

theorem linesPrefix_pipes : ∀ m, linesPrefix (List.replicate m c! '|') = (List.replicate m c! '|', false)
  | 0 => rfl
  | 1 => rfl
  | _ + 2 => rfl

theorem unnamed_denotes : ∀ m, ∃ d, Denotes (unnamed m) d
  | 0 => ⟨_, .objEmpty (w := []) ws_nil⟩
  | m + 1 => by
    obtain ⟨d, hd⟩ := unnamed_denotes m
    have := Denotes.obj (ms := [(⟨[], b!"\"\"", [], [], unnamed m, []⟩, d)]) (by simp)
      (by simp [Member.Wf, Ws]; exact ⟨[], .nil, rfl⟩) (by simpa using hd)
    exact ⟨_, by simpa [membersText, Member.text, unnamed] using this⟩

theorem unnamed_head (m : Nat) : ∃ r, unnamed m = c! '{' :: r := by
  cases m with
  | zero => exact ⟨_, rfl⟩
  | succ m => exact ⟨_, rfl⟩

theorem unnamed_value (m : Nat) : IsValue (unnamed m) := by
  obtain ⟨d, hd⟩ := unnamed_denotes m
  exact value_of_denotes hd

/-- The first step along `|…` finds the member. -/
theorem first_unnamed (rec : GetFn) (m k : Nat) : ∃ i, getFirst rec (unnamed (m + 1)) (List.replicate (k + 1) c! '|') =
    .ok (leafVal (some i) (unnamed m), plainPath [] c! '|' (List.replicate k c! '|')) := by
  have ho : IsObject (unnamed (m + 1)) [(b!"\"\"", unnamed m)] := by
    refine .inr ⟨[⟨[], b!"\"\"", [], [], unnamed m, []⟩], by simp, ?_, ?_, ?_, rfl⟩
    · simp [Member.Wf, Ws]; exact ⟨[], .nil, rfl⟩
    · simpa using unnamed_value m
    · simp [membersText, Member.text, unnamed]
  have hp := pNext_pipes (k + 1)
  simp only [Nat.succ_ne_zero, if_false, Nat.add_sub_cancel] at hp
  obtain ⟨m1, m2⟩ := plainPath_mod (k := []) (by decide) c! '|' (List.replicate k c! '|')
  have hc := gStart_cont rec (unnamed (m + 1)).length (plainPath [] c! '|' (List.replicate k c! '|')) (q := []) (IsObject.isCont ho)
  obtain ⟨ms, h1, h2, h3, _, h5⟩ := gCont_obj rec (unnamed (m + 1)).length (plainPath [] c! '|' (List.replicate k c! '|')) (q := []) ho
  obtain ⟨_, i, _, _, _, _, _, h6⟩ := gObjLoop_hit (fun v => if (plainPath [] c! '|' (List.replicate k c! '|')).dives then
      gCont rec (unnamed (m + 1)).length (pNext (plainPath [] c! '|' (List.replicate k c! '|')).extra) v
      else .ok (Value.default, plainPath [] c! '|' (List.replicate k c! '|'))) (unnamed (m + 1)).length (plainPath [] c! '|' (List.replicate k c! '|'))
      (kl := b!"\"\"") (v := unnamed m) (s := []) (r := []) (after := []) ((keyIs_lit (b := []) .nil).2 rfl)
      (by rw [pKeyMatch_plain]; rfl) (before := []) h1 h2 (by simp) h3
  refine ⟨i, ?_⟩
  rw [getFirst_eq, linesPrefix_pipes]
  simp only [hp, m1, m2]
  rw [if_neg (by simp), if_neg (by simp), if_neg (by simp)]
  rw [List.append_nil] at hc h5
  rw [hc, h5, h6, if_neg]
  rw [last_dives [] (by decide)]
  simp

/-- Without room for `get_obj` the search of an object does not start. -/
theorem getWithin_short (r : Bytes) : getWithin 1 (c! '{' :: r) [] = .error .fuel := by
  rw [getWithin_succ]
  have hl : linesPrefix [] = ([], false) := rfl
  have hp : pNext [] = ⟨[], false, false, 0, 0, []⟩ := rfl
  unfold getStep firstStep Path.new
  rw [hl]
  simp only [pathNext_eq, hp, ok_bind]
  rw [if_neg (by simp), if_neg (by decide), if_neg (by decide)]
  unfold startStep
  rw [if_neg (by simp), show idx (c! '{' :: r) 0 = .ok c! '{' from rfl, ok_bind, if_neg (by decide), if_pos rfl]
  rw [objWithin]
  rfl

/-- `m` pipes take `m + 2` calls. -/
theorem getWithin_pipes : ∀ m, getWithin (m + 1) (unnamed m) (List.replicate m c! '|') = .error .fuel
  | 0 => getWithin_short _
  | m + 1 => by
    obtain ⟨i, h⟩ := first_unnamed (getWithin (m + 1)) m m
    rw [getWithin_succ, getStep_eq]
    · unfold getBody
      rw [h]
      simp only [ok_bind]
      have hm : (plainPath [] c! '|' (List.replicate m c! '|')).more = true := by rw [plain_more]; decide
      have hs : (leafVal (some i) (unnamed m)).slice = unnamed m := by unfold leafVal mkVal; split <;> rfl
      have hne : (leafVal (some i) (unnamed m)).slice ≠ [] := by
        obtain ⟨r, hr⟩ := unnamed_head m
        rw [hs, hr]; simp
      rw [hm, if_neg (by simp), getIn_slice hne, hs]
      show (getWithin (m + 1) (unnamed m) (List.replicate m c! '|') >>= _) = _
      rw [getWithin_pipes m]
      rfl
    · intro j
      rw [linesPrefix_pipes, pNext_pipes, objWithin_succ, getObj_succ]
      refine objStep_congr (fun hd => ?_) (fun hd => ?_)
      all_goals
        rw [last_dives [] (by simp)] at hd
        simp at hd

end Gjson
