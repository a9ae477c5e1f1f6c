import Verif.Lemmas.ForEach
import Verif.Lemmas.Query
import Verif.Lemmas.PMatch
import Verif.Model.Get
/-
`get_obj`, `get_arr` and the start of `get` as functions on suffixes. The
positions that the Rust code returns along are dropped; `L` is the length of the
whole text, so that `L - s.length` is the position of the suffix `s`.
-/
namespace Gjson

/-! ### Keys -/

/-- The text of a key, from what follows its opening quote. -/
def keyText (b : Bytes) (f : Bool) : Bytes := if f then unescQ (c! '"' :: b) else b.dropLast

/-- `key_match` on the decoded key. -/
def pKeyMatch (k : Bytes) (path : Path) : Bool :=
  if path.pat ∨ path.esc then pm path.comp k else decide (k = path.comp)

theorem keyMatch_eq {b : Bytes} (f : Bool) (hb : b ≠ []) (path : Path) :
    keyMatch (c! '"' :: b) (escBit f) path = .ok (pKeyMatch (keyText b f) path) := by
  unfold keyMatch pKeyMatch keyText
  have hlast : ∀ k, (if path.pat ∨ path.esc then pmatch path.comp k else .ok (decide (k = path.comp))) =
      .ok (if path.pat ∨ path.esc then pm path.comp k else decide (k = path.comp)) := by
    intro k
    split
    · exact pmatch_eq _ _
    · rfl
  cases f
  · rw [if_neg (by decide)]
    have hk : stripQuotes (c! '"' :: b) = .ok b.dropLast := by
      unfold stripQuotes
      rw [if_neg (by simp), slice_ok (by simp; exact List.length_pos_iff.2 hb) (by simp)]
      congr 1
      unfold sub
      rw [List.dropLast_eq_take]; simp
    rw [hk]
    exact hlast _
  · rw [if_pos (by decide), unescape_eq]
    exact hlast _

/-- Skip blanks and colons. -/
def pSkipColon : Bytes → Bytes
  | [] => []
  | c :: r => if c ≤ c! ' ' ∨ c = c! ':' then pSkipColon r else c :: r

theorem pSkipColon_le : ∀ s : Bytes, (pSkipColon s).length ≤ s.length
  | [] => by simp [pSkipColon]
  | c :: r => by
    unfold pSkipColon
    split
    · have := pSkipColon_le r; simp; omega
    · simp

theorem skipColon_at {json : Bytes} : ∀ (n i : Nat) (s : Bytes), At json i s → s.length < n →
    ∃ j, skipColon json n i = .ok j ∧ At json j (pSkipColon s)
  | 0, _, _, _, h => by omega
  | n + 1, i, [], h, _ => by
    unfold skipColon pSkipColon
    rw [if_neg (by have := h.nil; omega)]
    exact ⟨_, rfl, h⟩
  | n + 1, i, c :: r, h, hl => by
    unfold skipColon pSkipColon
    rw [if_pos h.lt, h.idx]
    simp only [ok_bind]
    split
    · exact skipColon_at n (i + 1) r h.cons (by simp at hl; omega)
    · exact ⟨_, rfl, h⟩

/-! ### Objects -/

/-- Does a matching container get searched with the next component? -/
def Path.dives (p : Path) : Bool :=
  decide (p.sep = c! '.') && !(pNext p.extra).isModifier && !(pNext p.extra).isMultipath

theorem qStr_lt {r b q : Bytes} {f : Bool} (h : qStr r = some (b, f, q)) : q.length < r.length := by
  have h1 := qStr_append h
  have h2 := qStr_ne_nil h
  have := List.length_pos_iff.2 h2
  rw [h1]; simp; omega

/-- The loop of `get_obj`. -/
def gObjLoop (dive : Bytes → Res (Value × Path)) (L : Nat) (path : Path) (s : Bytes) : Res (Value × Path) :=
  match s with
  | [] => .ok (Value.default, path)
  | c :: r =>
    if c = c! '}' then .ok (Value.default, path)
    else if c ≠ c! '"' then gObjLoop dive L path r
    else match hq : qStr r with
      | none => .ok (Value.default, path)
      | some (b, f, q) =>
        match hv : pSkipColon q with
        | [] => .ok (Value.default, path)
        | c2 :: r2 =>
          have h1 := qStr_lt hq
          have h2 := pSkipColon_le q
          have h3 : (leafTok (c2 :: r2)).2.length < (c2 :: r2).length := leafTok_lt (by simp)
          have h4 : (c2 :: r2).length ≤ q.length := by rw [← hv]; exact h2
          if pKeyMatch (keyText b f) path then
            if path.dives ∧ (c2 = c! '{' ∨ c2 = c! '[') then do
              let (res, p) ← dive (c2 :: r2)
              if res.exists then .ok (res, p) else gObjLoop dive L path (c2 :: r2)
            else if (tokVal (L - (c2 :: r2).length) (leafTok (c2 :: r2)).1).exists then
              .ok (tokVal (L - (c2 :: r2).length) (leafTok (c2 :: r2)).1, path)
            else gObjLoop dive L path (leafTok (c2 :: r2)).2
          else gObjLoop dive L path (leafTok (c2 :: r2)).2
termination_by s.length
decreasing_by all_goals (simp only [List.length_cons] at *; omega)

theorem gObjLoop_nil (dive : Bytes → Res (Value × Path)) (L : Nat) (path : Path) :
    gObjLoop dive L path [] = .ok (Value.default, path) := by rw [gObjLoop.eq_def]

theorem gObjLoop_close (dive : Bytes → Res (Value × Path)) (L : Nat) (path : Path) (r : Bytes) :
    gObjLoop dive L path (c! '}' :: r) = .ok (Value.default, path) := by
  rw [gObjLoop.eq_def]; simp

theorem gObjLoop_skip (dive : Bytes → Res (Value × Path)) (L : Nat) (path : Path) {c : UInt8} (r : Bytes)
    (h1 : c ≠ c! '}') (h2 : c ≠ c! '"') : gObjLoop dive L path (c :: r) = gObjLoop dive L path r := by
  conv => { lhs; rw [gObjLoop.eq_def] }
  simp only
  rw [if_neg h1, if_pos h2]

theorem gObjLoop_nokey (dive : Bytes → Res (Value × Path)) (L : Nat) (path : Path) {r : Bytes}
    (h : qStr r = none) : gObjLoop dive L path (c! '"' :: r) = .ok (Value.default, path) := by
  rw [gObjLoop.eq_def]
  simp only
  rw [if_neg (by decide), if_neg (by decide)]
  split
  · rfl
  · rename_i hq; rw [h] at hq; simp at hq

theorem gObjLoop_noval (dive : Bytes → Res (Value × Path)) (L : Nat) (path : Path) {r b q : Bytes} {f : Bool}
    (h : qStr r = some (b, f, q)) (hv : pSkipColon q = []) :
    gObjLoop dive L path (c! '"' :: r) = .ok (Value.default, path) := by
  rw [gObjLoop.eq_def]
  simp only
  rw [if_neg (by decide), if_neg (by decide)]
  split
  · rfl
  · rename_i hq; rw [h] at hq; simp at hq
    obtain ⟨rfl, rfl, rfl⟩ := hq
    split
    · rfl
    · rename_i hv2; rw [hv] at hv2; simp at hv2

/-- What happens at a key with a value. -/
theorem gObjLoop_key (dive : Bytes → Res (Value × Path)) (L : Nat) (path : Path) {r b q : Bytes} {f : Bool}
    {c2 : UInt8} {r2 : Bytes} (h : qStr r = some (b, f, q)) (hv : pSkipColon q = c2 :: r2) :
    gObjLoop dive L path (c! '"' :: r) =
      if pKeyMatch (keyText b f) path then
        if path.dives ∧ (c2 = c! '{' ∨ c2 = c! '[') then do
          let (res, p) ← dive (c2 :: r2)
          if res.exists then .ok (res, p) else gObjLoop dive L path (c2 :: r2)
        else if (tokVal (L - (c2 :: r2).length) (leafTok (c2 :: r2)).1).exists then
          .ok (tokVal (L - (c2 :: r2).length) (leafTok (c2 :: r2)).1, path)
        else gObjLoop dive L path (leafTok (c2 :: r2)).2
      else gObjLoop dive L path (leafTok (c2 :: r2)).2 := by
  conv => { lhs; rw [gObjLoop.eq_def] }
  simp only
  rw [if_neg (by decide), if_neg (by decide)]
  split
  · rename_i hq; rw [h] at hq; simp at hq
  · rename_i hq; rw [h] at hq; simp at hq
    obtain ⟨rfl, rfl, rfl⟩ := hq
    split
    · rename_i hv2; rw [hv] at hv2; simp at hv2
    · rename_i hv2; rw [hv] at hv2; simp at hv2
      obtain ⟨rfl, rfl⟩ := hv2
      rfl

/-! ### Arrays -/

/-- Collect the results of a partial map, in order. -/
def collectR (f : Value → Res (Option Value)) : List Value → Res (List Value)
  | [] => .ok []
  | v :: r => do
    let o ← f v
    let l ← collectR f r
    .ok (o.toList ++ l)

/-- The first element that satisfies a test. -/
def findR (f : Value → Res Bool) : List Value → Res Value
  | [] => .ok Value.default
  | v :: r => do if ← f v then .ok v else findR f r

/-- The texts of the existing values. -/
def existing (l : List Value) : List Bytes := (l.filter (·.exists)).map (·.json)

/-- The array built from the existing values. -/
def arrayOf (l : List Value) : Value :=
  mkOwned (c! '[' :: (joinComma (existing l) ++ [c! ']'])) none INFO_ARRAY

/-- `get_arr` on the values of the array. -/
def gArrVals (rec : GetFn) (path : Path) (vals : List Value) : Res (Value × Path) :=
  let index : Res (Value × Path) :=
    let k := (parseI64 path.comp).getD (-1)
    .ok (if k < 0 then Value.default else vals.getD k.toNat Value.default, path)
  match path.comp with
  | [] => index
  | c :: t =>
    if c = c! '#' then
      if t = [] then
        if path.sep = c! '.' then do
          let l ← collectR (fun v => do .ok (some (← getIn rec v (pGroup path).1))) vals
          .ok (arrayOf l, (pGroup path).2)
        else .ok (mkOwned (natDec vals.length) none INFO_NUMBER, path)
      else if t.getLast? = some c! '#' then do
        let l ← collectR (fun v => do
          if ← elemMatches rec (pParts path).1 (pParts path).2.1 (pParts path).2.2 v then
            if path.sep = c! '.' then do .ok (some (← getIn rec v (pGroup path).1)) else .ok (some v)
          else .ok none) vals
        .ok (arrayOf l, (pGroup path).2)
      else do
        let v ← findR (elemMatches rec (pParts path).1 (pParts path).2.1 (pParts path).2.2) vals
        .ok (v, path)
    else index

/-- `get_arr` at a suffix. -/
def gArr (rec : GetFn) (L : Nat) (lines : Bool) (path : Path) (s : Bytes) : Res (Value × Path) :=
  gArrVals rec path (eachToks (L - s.length) lines s)

/-- How often `get_obj` can still dive. -/
def pathRank (p : Path) : Nat := if p.sep = 0 then 0 else p.extra.length + 1

theorem pathRank_next {p : Path} (h : p.dives = true) : pathRank (pNext p.extra) < pathRank p := by
  have h1 : p.sep = c! '.' := by unfold Path.dives at h; simp at h; exact h.1.1
  have h2 : p.sep ≠ 0 := by rw [h1]; decide
  unfold pathRank
  rw [if_neg h2]
  split
  · omega
  · have := (pNext_ok p.extra).lt (by assumption); omega

/-- `get_obj` at a suffix. -/
def gObj (rec : GetFn) (L : Nat) (path : Path) (s : Bytes) : Res (Value × Path) :=
  match s with
  | [] => .ok (Value.default, path)
  | c :: r =>
    if c ≠ c! '{' then .ok (Value.default, path)
    else gObjLoop (fun v =>
      if _h : path.dives then
        if v.head? = some c! '{' then gObj rec L (pNext path.extra) v
        else gArr rec L false (pNext path.extra) v
      else .ok (Value.default, path)) L path r
termination_by pathRank path
decreasing_by exact pathRank_next _h

/-- The search of `get` once the path is known to be an ordinary component. -/
def gStart (rec : GetFn) (L : Nat) (path : Path) (s : Bytes) : Res (Value × Path) :=
  match s with
  | [] => .ok (Value.default, path)
  | c :: r =>
    if c ≤ c! ' ' then gStart rec L path r
    else if c = c! '{' then gObj rec L path (c :: r)
    else if c = c! '[' then gArr rec L false path (c :: r)
    else .ok (Value.default, path)

/-! ### Refinement -/

theorem joinComma_snoc : ∀ (l : List Bytes) (x : Bytes),
    joinComma (l ++ [x]) = if l = [] then x else joinComma l ++ c! ',' :: x
  | [], x => rfl
  | [a], x => by simp [joinComma]
  | a :: b :: l, x => by
    have := joinComma_snoc (b :: l) x
    simp only [List.cons_append] at this ⊢
    rw [joinComma, this]
    simp [joinComma]

/-- Writing the values one after the other. -/
theorem push_fold (f : Value → Res (Option Value)) : ∀ (vals done : List Value),
    runFold (fun (st : Bytes × Nat) _ value => do
        match ← f value with
        | some v => .ok (pushValue st v, true)
        | none => .ok (st, true))
      (c! '[' :: joinComma (existing done), (existing done).length) (vals.map (Value.default, ·)) =
    (collectR f vals >>= fun l =>
      .ok (c! '[' :: joinComma (existing (done ++ l)), (existing (done ++ l)).length))
  | [], done => by simp [runFold, collectR]
  | v :: r, done => by
    simp only [List.map_cons, runFold, collectR]
    cases hf : f v with
    | error e => rfl
    | ok o =>
      simp only [ok_bind]
      cases o with
      | none =>
        simp only [ok_bind, if_true]
        rw [push_fold f r done]
        cases collectR f r <;> simp
      | some w =>
        simp only [ok_bind, if_true]
        have : pushValue (c! '[' :: joinComma (existing done), (existing done).length) w =
            (c! '[' :: joinComma (existing (done ++ [w])), (existing (done ++ [w])).length) := by
          unfold pushValue existing
          simp only [List.filter_append, List.map_append]
          cases hw : w.exists
          · simp [hw]
          · rw [if_pos rfl]
            simp only [hw, List.filter_cons, if_true, List.filter_nil, List.map_cons, List.map_nil]
            rw [joinComma_snoc]
            cases (List.filter (fun x => x.exists) done).map (fun x => x.json) <;> simp [joinComma]
        rw [this, push_fold f r (done ++ [w])]
        cases collectR f r <;> simp

theorem toks_exist (i : Nat) (s : Bytes) : ∀ v ∈ toks i s, v.exists = true ∧ v.json = v.slice := by
  generalize hn : s.length = n
  induction n using Nat.strongRecOn generalizing i s with
  | ind n ih =>
    cases s with
    | nil => simp [toks_nil]
    | cons c r =>
      intro v hv
      by_cases c1 : c ≤ c! ' ' ∨ c = c! ',' ∨ c = c! ':'
      · rw [toks_skip c1] at hv
        exact ih r.length (by simp at hn; omega) _ _ rfl v hv
      by_cases c2 : c = c! '}' ∨ c = c! ']'
      · rw [toks_close c2] at hv; simp at hv
      rw [toks_tok c1 c2] at hv
      split at hv
      · rename_i he
        rcases List.mem_cons.1 hv with rfl | hv
        · refine ⟨he, ?_⟩
          rcases h : (leafTok (c :: r)).1 with _ | ⟨t, info⟩
          · rfl
          · simp [tokVal]
        · have := leafTok_lt (s := c :: r) (by simp)
          exact ih _ (by omega) _ _ rfl v hv
      · simp at hv

theorem eachToks_exist (i : Nat) (lines : Bool) (s : Bytes) :
    ∀ v ∈ eachToks i lines s, v.exists = true ∧ v.json = v.slice := by
  unfold eachToks; split <;> exact toks_exist _ _

theorem index_fold (k : Int) (i : Nat) : ∀ (vals : List Value) (n : Nat) (a : Nat),
    ∃ m b, runFold (fun (st : Value × Int × Nat) _ value =>
      if st.2.1 = k then .ok ((value, st.2.1, i), false)
      else .ok ((st.1, st.2.1 + 1, st.2.2), true))
    (Value.default, (n : Int), a) (vals.map (Value.default, ·)) =
    .ok (if k < n then Value.default else vals.getD (k.toNat - n) Value.default, m, b)
  | [], n, a => ⟨n, a, by simp [runFold]⟩
  | v :: r, n, a => by
    simp only [List.map_cons, runFold]
    by_cases h : (n : Int) = k
    · rw [if_pos h]
      refine ⟨n, i, ?_⟩
      simp only [ok_bind]
      rw [if_neg (by simp), if_neg (by omega)]
      have : k.toNat - n = 0 := by omega
      rw [this]; rfl
    · rw [if_neg h]
      simp only [ok_bind, if_true]
      obtain ⟨m, b, h2⟩ := index_fold k i r (n + 1) a
      refine ⟨m, b, ?_⟩
      have e : ((n : Int) + 1) = ((n + 1 : Nat) : Int) := by simp
      rw [e, h2]
      congr 2
      by_cases hk : k < n
      · rw [if_pos hk, if_pos (by omega)]
      · rw [if_neg hk, if_neg (by omega)]
        have : k.toNat - n = (k.toNat - (n + 1)) + 1 := by omega
        rw [this]; rfl

theorem find_fold (f : Value → Res Bool) : ∀ vals : List Value,
    runFold (fun (res : Value) _ value => do if ← f value then .ok (value, false) else .ok (res, true))
      Value.default (vals.map (Value.default, ·)) = findR f vals
  | [] => rfl
  | v :: r => by
    simp only [List.map_cons, runFold, findR]
    cases hf : f v with
    | error e => rfl
    | ok b =>
      cases b
      · simp [find_fold f r]
      · simp

theorem count_fold : ∀ (vals : List Value) (n : Nat),
    runFold (fun (count : Nat) _ _ => .ok (count + 1, true)) n (vals.map (Value.default, ·)) =
      .ok (n + vals.length)
  | [], n => by simp [runFold]
  | v :: r, n => by
    simp only [List.map_cons, runFold, ok_bind, if_true]
    rw [count_fold r]; simp; omega

theorem findR_exists {f : Value → Res Bool} : ∀ {vals : List Value} {v : Value},
    findR f vals = .ok v → v ∈ vals ∨ v = Value.default
  | [], v, h => by simp [findR] at h; exact .inr h.symm
  | a :: r, v, h => by
    unfold findR at h
    obtain ⟨b, _, h2⟩ := bind_eq_ok.1 h
    cases b
    · rcases findR_exists (vals := r) (by simpa using h2) with h3 | h3
      · exact .inl (List.mem_cons_of_mem _ h3)
      · exact .inr h3
    · simp at h2; exact .inl (by simp [h2])

theorem getArrChildAtIndex_at {json : Bytes} {i : Nat} {s : Bytes} (lines : Bool) (path : Path) (h : At json i s) :
    ∃ j, getArrChildAtIndex json i lines path =
      .ok (if (parseI64 path.comp).getD (-1) < 0 then Value.default
        else (eachToks i lines s).getD ((parseI64 path.comp).getD (-1)).toNat Value.default, j, path) := by
  unfold getArrChildAtIndex
  simp only
  obtain ⟨j, hj⟩ := forEach_at (kind := .array) (f := fun (st : Value × Int × Nat) _ value =>
      if st.2.1 = (parseI64 path.comp).getD (-1) then .ok ((value, st.2.1, i), false)
      else .ok ((st.1, st.2.1 + 1, st.2.2), true)) lines (Value.default, 0, 0) h
  rw [hj]
  have e : eachPairs .array (eachToks i lines s) = (eachToks i lines s).map (Value.default, ·) := by
    simp [eachPairs]
  rw [e]
  obtain ⟨m, b, h2⟩ := index_fold ((parseI64 path.comp).getD (-1)) i (eachToks i lines s) 0 0
  rw [show (((0 : Nat) : Int)) = 0 from rfl] at h2
  rw [h2]
  simp only [ok_bind, Nat.sub_zero]
  by_cases hk : (parseI64 path.comp).getD (-1) < 0
  · rw [if_pos hk]; exact ⟨j, rfl⟩
  · rw [if_neg hk]
    by_cases hx : ((eachToks i lines s).getD ((parseI64 path.comp).getD (-1)).toNat Value.default).exists = true
    · rw [if_pos hx]; exact ⟨_, rfl⟩
    · rw [if_neg hx]
      refine ⟨j, ?_⟩
      congr 2
      rw [List.getD_eq_getElem?_getD] at hx ⊢
      cases hg : (eachToks i lines s)[((parseI64 path.comp).getD (-1)).toNat]? with
      | none => rfl
      | some v =>
        rw [hg] at hx
        exact absurd (eachToks_exist _ _ _ v (List.mem_of_getElem? hg)).1 hx

theorem idx_last {c : UInt8} {t : Bytes} (ht : t ≠ []) :
    idx (c :: t) ((c :: t).length - 1) = .ok (t.getLast ht) := by
  have h : At (c :: t) ((c :: t).length - 1) [t.getLast ht] := by
    refine ⟨by simp, ?_⟩
    have e : c :: t = (c :: t.dropLast) ++ [t.getLast ht] := by simp [List.dropLast_concat_getLast]
    have l : (c :: t).length - 1 = (c :: t.dropLast).length := by
      have := List.length_pos_iff.2 ht
      simp; omega
    rw [l]
    conv => { lhs; arg 2; rw [e] }
    simp
  exact h.idx

theorem getArr_at (rec : GetFn) {json : Bytes} {i : Nat} {s : Bytes} (lines : Bool) (path : Path) (h : At json i s) :
    ∃ j, getArr rec json i lines path =
      (gArr rec json.length lines path s >>= fun (v, p) => .ok (v, j, p)) := by
  have hi : json.length - s.length = i := by have := h.len; omega
  unfold getArr gArr gArrVals
  rw [hi]
  have e : eachPairs .array (eachToks i lines s) = (eachToks i lines s).map (Value.default, ·) := by
    simp [eachPairs]
  obtain ⟨ji, hji⟩ := getArrChildAtIndex_at lines path h
  cases hc : path.comp with
  | nil => simp only; rw [← hc, hji]; exact ⟨ji, rfl⟩
  | cons c t =>
    simp only
    by_cases c1 : c = c! '#'
    · rw [if_pos c1, if_pos c1]
      by_cases c2 : t = []
      · rw [if_pos (by simp [c2]), if_pos c2]
        by_cases c3 : path.sep = c! '.'
        · rw [if_pos c3, if_pos c3]
          unfold getArrChildrenWithSubpath
          rw [nextGroup_eq]
          simp only [ok_bind]
          obtain ⟨j, hj⟩ := forEach_at (kind := .array) (f := fun (st : Bytes × Nat) _ value => do
            let value ← getIn rec value (pGroup path).1
            .ok (pushValue st value, true)) lines ([c! '['], 0) h
          rw [hj, e]
          have := push_fold (fun v => do .ok (some (← getIn rec v (pGroup path).1))) (eachToks i lines s) []
          have e2 : (fun (st : Bytes × Nat) (_ : Value) value => do
              match ← (do .ok (some (← getIn rec value (pGroup path).1)) : Res (Option Value)) with
              | some v => .ok (pushValue st v, true)
              | none => .ok (st, true) : Bytes × Nat → Value → Value → Res ((Bytes × Nat) × Bool)) =
              (fun (st : Bytes × Nat) (_ : Value) value => do
            let value ← getIn rec value (pGroup path).1
            .ok (pushValue st value, true)) := by
            funext st _ value
            cases getIn rec value (pGroup path).1 <;> rfl
          rw [e2] at this
          simp only [existing, List.filter_nil, List.map_nil, joinComma, List.length_nil, List.nil_append] at this
          rw [this]
          refine ⟨j, ?_⟩
          cases collectR (fun v => do .ok (some (← getIn rec v (pGroup path).1))) (eachToks i lines s) with
          | error e => rfl
          | ok l => simp only [ok_bind, jsonFromOwned_eq, arrayOf, existing, List.cons_append]
        · rw [if_neg c3, if_neg c3]
          unfold getArrCount
          obtain ⟨j, hj⟩ := forEach_at (kind := .array)
            (f := fun (count : Nat) _ _ => .ok (count + 1, true)) lines 0 h
          rw [hj, e, count_fold]
          simp only [ok_bind, jsonFromOwned_eq, Nat.zero_add]
          exact ⟨j, rfl⟩
      · rw [if_neg (by simpa using c2), if_neg c2, idx_last c2]
        have hl : t.getLast? = some (t.getLast c2) := List.getLast?_eq_some_getLast c2
        rw [hl]
        simp only [ok_bind]
        by_cases c3 : t.getLast c2 = c! '#'
        · rw [if_pos c3, if_pos (by rw [c3])]
          unfold getArrChildrenWithQuerySubpath
          rw [queryParts_eq, nextGroup_eq]
          simp only [ok_bind]
          generalize hP : pParts path = P
          obtain ⟨lh, op, rh⟩ := P
          generalize hG : pGroup path = G
          obtain ⟨g, rest⟩ := G
          simp only
          let F : Value → Res (Option Value) := fun v => do
            if ← elemMatches rec lh op rh v then
              if path.sep = c! '.' then do .ok (some (← getIn rec v g)) else .ok (some v)
            else .ok none
          obtain ⟨j, hj⟩ := forEach_at (kind := .array) (f := fun (st : Bytes × Nat) _ value => do
            match ← F value with
            | some v => .ok (pushValue st v, true)
            | none => .ok (st, true)) lines ([c! '['], 0) h
          have e2 : (fun (st : Bytes × Nat) (_ : Value) value => do
            match ← F value with
            | some v => .ok (pushValue st v, true)
            | none => .ok (st, true) : Bytes × Nat → Value → Value → Res ((Bytes × Nat) × Bool)) =
            (fun (st : Bytes × Nat) _ value => do
              if ← elemMatches rec lh op rh value then do
                let value ← match (if path.sep = c! '.' then some g else none) with
                  | some sp => getIn rec value sp
                  | none => .ok value
                .ok (pushValue st value, true)
              else .ok (st, true)) := by
            funext st _ value
            simp only [F]
            cases elemMatches rec lh op rh value with
            | error e => rfl
            | ok b =>
              cases b
              · rfl
              · simp only [ok_bind, if_true]
                by_cases c4 : path.sep = c! '.'
                · simp only [c4, if_true]
                  cases getIn rec value g <;> rfl
                · simp only [c4, if_false]; rfl
          have := push_fold F (eachToks i lines s) []
          simp only [existing, List.filter_nil, List.map_nil, joinComma, List.length_nil, List.nil_append] at this
          rw [e, this] at hj
          rw [e2] at hj
          simp only [ok_bind] at hj
          erw [hj]
          refine ⟨j, ?_⟩
          show _ = ((collectR F (eachToks i lines s) >>= fun l => .ok (arrayOf l, rest)) >>= fun (v, p) => .ok (v, j, p))
          cases collectR F (eachToks i lines s) with
          | error e => rfl
          | ok l => simp only [ok_bind, jsonFromOwned_eq, arrayOf, existing, List.cons_append]
        · rw [if_neg c3, if_neg (by simpa using c3)]
          unfold getArrChildWithQuery
          rw [queryParts_eq]
          simp only [ok_bind]
          generalize hP : pParts path = P
          obtain ⟨lh, op, rh⟩ := P
          simp only
          obtain ⟨j, hj⟩ := forEach_at (kind := .array) (f := fun (res : Value) _ value => do
            if ← elemMatches rec lh op rh value then .ok (value, false) else .ok (res, true))
            lines Value.default h
          rw [hj, e, find_fold]
          refine ⟨j, ?_⟩
          cases hf : findR (elemMatches rec lh op rh) (eachToks i lines s) with
          | error e => rfl
          | ok v =>
            simp only [ok_bind]
            rcases findR_exists hf with h3 | h3
            · rw [if_pos (eachToks_exist _ _ _ v h3).1]
            · rw [h3, if_neg (by simp)]
    · rw [if_neg c1, if_neg c1, ← hc, hji]
      exact ⟨ji, rfl⟩

/-- The search of a nested container, as a model of lib.rs:588-598. -/
def DiveOk (json : Bytes) (path : Path) (dive : Nat → Path → Res (Option Found))
    (pd : Bytes → Res (Value × Path)) : Prop :=
  path.sep = c! '.' → ∀ i c r, At json i (c :: r) → (c = c! '{' ∨ c = c! '[') →
    if path.dives then ∃ j, dive i path = (pd (c :: r) >>= fun (v, p) => .ok (some (v, j, p)))
    else dive i path = .ok none

theorem getObjLoop_at {json : Bytes} {path : Path} {dive : Nat → Path → Res (Option Found)}
    {pd : Bytes → Res (Value × Path)} (hd : DiveOk json path dive pd) :
    ∀ (n i : Nat) (s : Bytes), At json i s → s.length < n →
      ∃ j, getObjLoop dive json path n i =
        (gObjLoop pd json.length path s >>= fun (v, p) => .ok (v, j, p))
  | 0, _, _, _, h => by omega
  | n + 1, i, [], h, _ => by
    unfold getObjLoop
    rw [if_neg (by have := h.nil; omega), gObjLoop_nil]
    exact ⟨_, rfl⟩
  | n + 1, i, c :: r, h, hl => by
    unfold getObjLoop
    rw [if_pos h.lt, h.idx]
    simp only [ok_bind]
    by_cases c1 : c = c! '}'
    · rw [if_pos c1, c1, gObjLoop_close]; exact ⟨_, rfl⟩
    rw [if_neg c1]
    by_cases c2 : c ≠ c! '"'
    · rw [if_pos c2, gObjLoop_skip _ _ _ _ c1 c2]
      exact getObjLoop_at hd n (i + 1) r h.cons (by simp at hl; omega)
    rw [if_neg c2]
    have hc : c = c! '"' := by simpa using c2
    have hs := scanString_at h
    cases hq : qStr r with
    | none =>
      rw [hq] at hs; simp only at hs
      rw [hs, hc, gObjLoop_nokey _ _ _ hq]
      simp only [ok_bind]
      have : skipColon json (json.length + 1) json.length = .ok json.length := by
        unfold skipColon; rw [if_neg (by omega)]
      rw [this]
      simp only [ok_bind]
      rw [if_pos trivial]
      exact ⟨_, rfl⟩
    | some x =>
      obtain ⟨b, f, q⟩ := x
      rw [hq] at hs; simp only at hs
      rw [hs.1]
      simp only [ok_bind]
      have hql := qStr_lt hq
      have hlen := hs.2.len
      obtain ⟨j, hj, hj2⟩ := skipColon_at (json.length + 1) _ q hs.2 (by omega)
      rw [hj]
      simp only [ok_bind]
      cases hv : pSkipColon q with
      | nil =>
        rw [hv] at hj2
        rw [if_pos hj2.nil, hc, gObjLoop_noval _ _ _ hq hv]
        exact ⟨_, rfl⟩
      | cons c2 r2 =>
        have hkey := gObjLoop_key pd json.length path hq hv
        rw [← hc] at hkey
        rw [hkey]
        rw [hv] at hj2
        rw [if_neg hj2.ne]
        have hkm := keyMatch_eq f (qStr_ne_nil hq) path
        rw [← hc] at hkm
        rw [hkm]
        simp only [ok_bind]
        have hjl : json.length - (c2 :: r2).length = j := by have := hj2.len; omega
        have hql2 := pSkipColon_le q
        rw [hv] at hql2
        have hlt := leafTok_lt (s := c2 :: r2) (by simp)
        rw [hjl]
        cases hk : pKeyMatch (keyText b f) path
        · rw [if_neg (by simp)]
          obtain ⟨j2, p2, h3, h4⟩ := procValue_skip dive path hj2
          rw [h3]
          simp only [ok_bind]
          rw [if_neg (by simp)]
          exact getObjLoop_at hd n j2 _ h4 (by simp at hl hlt hql2 ⊢; omega)
        · rw [if_pos rfl]
          by_cases c3 : path.dives ∧ (c2 = c! '{' ∨ c2 = c! '[')
          · rw [if_pos c3]
            have hsep : path.sep = c! '.' := by have := c3.1; unfold Path.dives at this; simp at this; exact this.1.1
            have hdv := hd hsep j c2 r2 hj2 c3.2
            rw [if_pos c3.1] at hdv
            obtain ⟨j2, hdv⟩ := hdv
            have hne : c2 ≠ c! '"' := by rcases c3.2 with h | h <;> rw [h] <;> decide
            have hpv : procValue dive json j path true = (pd (c2 :: r2) >>= fun (v, p) =>
                if v.exists then .ok (v, j2, p) else .ok (Value.default, j, path)) := by
              unfold procValue
              rw [hj2.idx]
              simp only [ok_bind]
              rw [if_neg hne, if_pos c3.2, if_pos trivial, if_pos hsep, hdv]
              cases pd (c2 :: r2) <;> rfl
            rw [hpv]
            cases hp : pd (c2 :: r2) with
            | error e => exact ⟨0, rfl⟩
            | ok x =>
              obtain ⟨v, p⟩ := x
              simp only [ok_bind]
              cases hx : v.exists
              · simp only [if_neg (show ¬ (false = true) by simp), ok_bind]
                rw [if_neg (by simp)]
                exact getObjLoop_at hd n j _ hj2 (by simp at hl hlt hql2 ⊢; omega)
              · simp only [if_true, ok_bind, hx]
                exact ⟨j2, rfl⟩
          · rw [if_neg c3]
            have hnd : NoDive dive j path c2 := by
              by_cases hsep : path.sep = c! '.'
              · by_cases hcc : c2 = c! '{' ∨ c2 = c! '['
                · have hdv := hd hsep j c2 r2 hj2 hcc
                  rw [if_neg (fun h => c3 ⟨h, hcc⟩)] at hdv
                  exact .inr (.inr hdv)
                · exact .inr (.inl hcc)
              · exact .inl hsep
            obtain ⟨j2, h3, h4⟩ := procValue_match dive path hj2 hnd
            rw [h3]
            simp only [ok_bind]
            by_cases hx : (tokVal j (leafTok (c2 :: r2)).1).exists = true
            · rw [if_pos hx, if_pos hx]
              refine ⟨j2, ?_⟩
              have : tokPath path (c2 :: r2) = path := by
                simp only [tokPath]
                split
                · rfl
                · rename_i hts
                  exfalso
                  have hln : (leafTok (c2 :: r2)).1 = none := by
                    unfold TokStart at hts
                    simp only [leafTok]
                    rw [if_neg (by grind), if_neg (by grind), if_neg (by grind), if_neg (by grind), if_neg (by grind), if_neg (by grind)]
                  rw [hln] at hx
                  simp [tokVal] at hx
              rw [this]; rfl
            · rw [if_neg hx, if_neg hx]
              exact getObjLoop_at hd n j2 _ h4 (by simp at hl hlt hql2 ⊢; omega)

theorem getObj_at (rec : GetFn) {json : Bytes} : ∀ (d i : Nat) (path : Path) (s : Bytes), At json i s →
    pathRank path < d →
      ∃ j, getObj rec json d i path =
        (gObj rec json.length path s >>= fun (v, p) => .ok (v, j, p))
  | 0, _, _, _, _, h => by omega
  | d + 1, i, path, [], h, _ => by
    unfold getObj
    simp only
    rw [if_pos h.nil, gObj.eq_def]
    exact ⟨_, rfl⟩
  | d + 1, i, path, c :: r, h, hr => by
    unfold getObj
    simp only
    rw [if_neg h.ne, h.idx, gObj.eq_def]
    simp only [ok_bind]
    by_cases c1 : c ≠ c! '{'
    · rw [if_pos c1, if_pos c1]; exact ⟨_, rfl⟩
    rw [if_neg c1, if_neg c1]
    refine getObjLoop_at ?_ _ _ r h.cons (by have := h.len; simp at this; omega)
    intro hsep i2 c2 r2 hat hcc
    simp only
    rw [pathNext_eq]
    simp only [ok_bind]
    by_cases hdv : path.dives = true
    · rw [if_pos hdv]
      have hrank := pathRank_next hdv
      have h2 : ((!(pNext path.extra).isModifier) = true ∧ (!(pNext path.extra).isMultipath) = true) := by
        unfold Path.dives at hdv
        simp at hdv
        simp [hdv]
      rw [if_pos h2, hat.idx]
      simp only [ok_bind]
      by_cases c3 : c2 = c! '{'
      · rw [if_pos c3]
        obtain ⟨j, hj⟩ := getObj_at rec d i2 (pNext path.extra) (c2 :: r2) hat (by omega)
        rw [hj, dif_pos hdv, if_pos (by simp [c3])]
        refine ⟨j, ?_⟩
        cases gObj rec json.length (pNext path.extra) (c2 :: r2) <;> rfl
      · rw [if_neg c3]
        obtain ⟨j, hj⟩ := getArr_at rec false (pNext path.extra) hat
        rw [hj, dif_pos hdv, if_neg (by simpa using c3)]
        refine ⟨j, ?_⟩
        cases gArr rec json.length false (pNext path.extra) (c2 :: r2) <;> rfl
    · rw [if_neg hdv]
      have h2 : ¬ ((!(pNext path.extra).isModifier) = true ∧ (!(pNext path.extra).isMultipath) = true) := by
        intro h2
        apply hdv
        unfold Path.dives
        simp at h2
        simp [h2, hsep]
      rw [if_neg h2]

theorem getStart_at (rec : GetFn) {json : Bytes} (path : Path) : ∀ (n i : Nat) (s : Bytes), At json i s →
    s.length < n → getStart rec json path n i = gStart rec json.length path s
  | 0, _, _, _, h => by omega
  | n + 1, i, [], h, _ => by
    unfold getStart gStart
    rw [if_pos h.nil]
  | n + 1, i, c :: r, h, hl => by
    unfold getStart gStart
    rw [if_neg h.ne, h.idx]
    simp only [ok_bind]
    split
    · exact getStart_at rec path n (i + 1) r h.cons (by simp at hl; omega)
    split
    · obtain ⟨j, hj⟩ := getObj_at rec (path.extra.length + 2) i path (c :: r) h (by unfold pathRank; split <;> omega)
      rw [hj]
      cases gObj rec json.length path (c :: r) <;> rfl
    split
    · obtain ⟨j, hj⟩ := getArr_at rec false path h
      rw [hj]
      cases gArr rec json.length false path (c :: r) <;> rfl
    · rfl

/-- The first part of `get`. -/
theorem getFirst_eq (rec : GetFn) (json path : Bytes) :
    getFirst rec json path =
      (let p := pNext (linesPrefix path).1
       if (linesPrefix path).2 then gArr rec json.length true p json
       else if p.isModifier then modExec rec json p
       else if p.isMultipath then multiExec rec json p
       else gStart rec json.length p json) := by
  unfold getFirst Path.new
  simp only [pathNext_eq, ok_bind]
  split
  · obtain ⟨j, hj⟩ := getArr_at rec true (pNext (linesPrefix path).1) (At.zero json)
    rw [hj]
    cases gArr rec json.length true (pNext (linesPrefix path).1) json <;> rfl
  split
  · rfl
  split
  · rfl
  · exact getStart_at rec _ _ 0 json (At.zero _) (by omega)

end Gjson
