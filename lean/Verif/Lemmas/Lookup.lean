import Verif.Lemmas.Search
import Verif.Lemmas.Prov

import Verif.Lemmas.Num
/-
Searching well-formed JSON for plain components.
-/
namespace Gjson
open Spec

/-! ### Plain components -/

theorem PlainKey.compBody {k : Bytes} (h : ∀ c ∈ k, c ∉ pathSpecial) : CompBody k false false := by
  induction k with
  | nil => exact .nil
  | cons c k ih =>
    refine .plain ?_ (ih fun x hx => h x (by simp [hx]))
    have := h c (by simp)
    unfold pathSpecial at this
    unfold Special IsSep
    simp only [List.mem_cons, List.not_mem_nil, or_false] at this
    grind

theorem PlainKey.first {k : Bytes} (h : PlainKey k) : PlainFirst k := by
  cases k with
  | nil => trivial
  | cons c k =>
    have := h.2 c (by simp)
    unfold pathStart at this
    unfold PlainFirst
    simp only [List.mem_cons, List.not_mem_nil, or_false] at this
    grind

/-- The path of a plain component. -/
def plainPath (k : Bytes) (sep : UInt8) (rest : Bytes) : Path := ⟨k, false, false, sep, 0, rest⟩

theorem pNext_plain {k : Bytes} (h : PlainKey k) {sep : UInt8} {t rest : Bytes} (ht : Tail sep rest t) :
    pNext (k ++ t) = plainPath k sep rest := pNext_comp (PlainKey.compBody h.1) (PlainKey.first h) ht

theorem plainPath_mod {k : Bytes} (h : PlainKey k) (sep : UInt8) (rest : Bytes) :
    (plainPath k sep rest).isModifier = false ∧ (plainPath k sep rest).isMultipath = false :=
  isModifier_comp (PlainKey.first h) _ _ _ _

/-- `pNext` of a dot path. -/
theorem pNext_dot {k : Bytes} {ks : List Bytes} (h : PlainKey k) :
    pNext (dotPath (k :: ks)) = plainPath k (if ks = [] then 0 else c! '.') (dotPath ks) := by
  cases ks with
  | nil =>
    have := pNext_plain h (t := []) (sep := 0) (rest := []) ⟨rfl, rfl⟩
    simpa [dotPath] using this
  | cons k' ks =>
    rw [dotPath, if_neg (by simp)]
    exact pNext_plain h ⟨.inl rfl, rfl, rfl⟩

theorem linesPrefix_plain {k : Bytes} (h : PlainKey k) (hk : k ≠ []) (t : Bytes) :
    linesPrefix (k ++ t) = (k ++ t, false) := by
  cases k with
  | nil => exact absurd rfl hk
  | cons c k =>
    have := h.1 c (by simp)
    have hc : c ≠ c! '.' := by rintro rfl; exact this (by decide)
    unfold linesPrefix
    rw [List.cons_append]
    split
    · rename_i heq
      simp only [List.cons.injEq] at heq
      rw [if_neg (by rw [← heq.1]; simp [hc])]
    · rfl

theorem linesPrefix_dot {k : Bytes} {ks : List Bytes} (h : PlainKey k) (hk : k ≠ []) :
    linesPrefix (dotPath (k :: ks)) = (dotPath (k :: ks), false) := by
  cases ks with
  | nil => have := linesPrefix_plain h hk []; simpa [dotPath] using this
  | cons k' ks => exact linesPrefix_plain h hk _

theorem linesPrefix_single {k : Bytes} (h : PlainKey k) : linesPrefix k = (k, false) := by
  by_cases hk : k = []
  · subst hk; rfl
  · have := linesPrefix_plain h hk []; simpa using this

/-- The end of `get`. -/
def finish (x : Value × Path) : Res Value := if !x.2.more then .ok x.1 else getIn get x.1 x.2.extra

/-- `get` with an ordinary first component. -/
theorem get_start {path : Bytes} (hl : linesPrefix path = (path, false))
    (hm : (pNext path).isModifier = false ∧ (pNext path).isMultipath = false) (json : Bytes) :
    get json path = (gStart get json.length (pNext path) json >>= finish) := by
  rw [get_eq, getBody, getFirst_eq, hl]
  simp only [hm.1, hm.2, Bool.false_eq_true, if_false]
  cases gStart get json.length (pNext path) json <;> rfl

theorem get_dot {k : Bytes} {ks : List Bytes} (h : PlainKey k) (hk : k ≠ [] ∨ ks = []) (json : Bytes) :
    get json (dotPath (k :: ks)) =
      (gStart get json.length (plainPath k (if ks = [] then 0 else c! '.') (dotPath ks)) json >>= finish) := by
  rw [get_start, pNext_dot h]
  · rcases hk with hk | rfl
    · exact linesPrefix_dot h hk
    · exact linesPrefix_single h
  · rw [pNext_dot h]; exact plainPath_mod h _ _

theorem plain_dives {k k' : Bytes} {ks : List Bytes} (h : PlainKey k') :
    (plainPath k (c! '.') (dotPath (k' :: ks))).dives = true := by
  unfold Path.dives
  have e : (plainPath k (c! '.') (dotPath (k' :: ks))).extra = dotPath (k' :: ks) := rfl
  rw [e, pNext_dot h]
  have := plainPath_mod h (if ks = [] then 0 else c! '.') (dotPath ks)
  rw [this.1, this.2]
  rfl

theorem last_dives (k : Bytes) {sep : UInt8} (hs : sep ≠ c! '.') (rest : Bytes) : (plainPath k sep rest).dives = false := by
  unfold Path.dives plainPath; simp [hs]

/-! ### Keys of well-formed objects -/

/-- The string that a key literal denotes, as the library itself reads it:
`parse(kl).str()`. -/
def KeyIs (kl s : Bytes) : Prop := ∃ v, parse kl = .ok v ∧ v.str = .ok s

theorem keyIs_lit {b s : Bytes} (h : StrBody b) : KeyIs (c! '"' :: (b ++ [c! '"'])) s ↔ s = unesc b := by
  have h1 := pParse_scalar (v := c! '"' :: (b ++ [c! '"'])) (r := []) (.str ⟨b, h, rfl⟩) .nil (by simp [kindOf]) 0
  rw [List.append_nil] at h1
  have h2 : parse (c! '"' :: (b ++ [c! '"'])) = .ok (leafVal (some 0) (c! '"' :: (b ++ [c! '"']))) := by
    rw [parse_eq, h1]
  unfold KeyIs
  rw [h2]
  constructor
  · rintro ⟨v, hv, hs⟩
    rw [Except.ok.injEq] at hv
    rw [← hv, leafVal_str h] at hs
    simpa using hs.symm
  · rintro rfl; exact ⟨_, rfl, leafVal_str h⟩

theorem keyText_lit {b : Bytes} (h : StrBody b) : keyText (b ++ [c! '"']) (decide (c! '\\' ∈ b)) = unesc b := by
  unfold keyText
  by_cases hb : c! '\\' ∈ b
  · rw [if_pos (by simpa using hb), unescQ_quoted]
  · rw [if_neg (by simpa using hb), unesc_body h hb]; simp

/-! ### Objects -/

theorem pSkipColon_ws {w s : Bytes} (h : Ws w) : pSkipColon (w ++ s) = pSkipColon s := by
  induction w with
  | nil => rfl
  | cons c w ih =>
    rw [List.cons_append, pSkipColon, if_pos (.inl (ws_le (h c (by simp)))), ih fun x hx => h x (by simp [hx])]

theorem pSkipColon_mid {w1 w2 s : Bytes} (h1 : Ws w1) (h2 : Ws w2) (hs : ∃ c q, s = c :: q ∧ StartsValue c) :
    pSkipColon (w1 ++ c! ':' :: (w2 ++ s)) = s := by
  rw [pSkipColon_ws h1, pSkipColon, if_pos (.inr rfl), pSkipColon_ws h2]
  obtain ⟨c, q, rfl, hc⟩ := hs
  have := hc.not_skip.1
  rw [pSkipColon, if_neg (by grind)]

theorem gObjLoop_ws (dive : Bytes → Res (Value × Path)) (L : Nat) (path : Path) {w s : Bytes} (h : Ws w) :
    gObjLoop dive L path (w ++ s) = gObjLoop dive L path s := by
  induction w with
  | nil => rfl
  | cons c w ih =>
    have hc : IsWs c := h c (by simp)
    unfold IsWs at hc
    rw [List.cons_append, gObjLoop_skip dive L path _ (by grind) (by grind), ih fun x hx => h x (by simp [hx])]

/-- Is the text a container? -/
def IsCont (v : Bytes) : Prop := kindOf v = .object ∨ kindOf v = .array
instance (v : Bytes) : Decidable (IsCont v) := by unfold IsCont; infer_instance

theorem isCont_cons {c : UInt8} {q : Bytes} : IsCont (c :: q) ↔ c = c! '{' ∨ c = c! '[' := by
  unfold IsCont kindOf
  simp only
  grind

/-- The loop of `get_obj` at one member. -/
theorem gObjLoop_member (dive : Bytes → Res (Value × Path)) (L : Nat) (path : Path) {m : Member} {r : Bytes} {s : Bytes}
    (hw : m.Wf) (hv : IsValue m.val) (hr : Follow r) (hs : KeyIs m.key s) :
    ∃ i, gObjLoop dive L path (m.text ++ r) =
      if pKeyMatch s path then
        if path.dives ∧ IsCont m.val then do
          let (res, p) ← dive (m.val ++ (m.post ++ r))
          if res.exists then .ok (res, p) else gObjLoop dive L path (m.val ++ (m.post ++ r))
        else .ok (leafVal (some i) m.val, path)
      else gObjLoop dive L path r := by
  obtain ⟨a1, ⟨b, hb, hkey⟩, a3, a4, a5⟩ := hw
  have e1 : m.text ++ r = m.pre ++ (c! '"' :: (b ++ (c! '"' :: (m.mid1 ++ c! ':' :: (m.mid2 ++ (m.val ++ (m.post ++ r))))))) := by
    simp [Member.text, hkey]
  rw [hkey, keyIs_lit hb] at hs
  obtain ⟨c, q, hcv, hst⟩ := IsValue.cons hv
  have h1 := qStr_body (q := m.mid1 ++ c! ':' :: (m.mid2 ++ (m.val ++ (m.post ++ r)))) hb
  have h2 : pSkipColon (m.mid1 ++ c! ':' :: (m.mid2 ++ (m.val ++ (m.post ++ r)))) = c :: (q ++ (m.post ++ r)) := by
    rw [pSkipColon_mid a3 a4 ⟨c, q ++ (m.post ++ r), by rw [hcv]; rfl, hst⟩, hcv]; rfl
  have h3 : leafTok (c :: (q ++ (m.post ++ r))) = (some (m.val, infoOf m.val), m.post ++ r) := by
    rw [← List.cons_append, ← hcv]; exact leafTok_value hv (Follow.ws a5 hr)
  have hc : IsCont m.val ↔ c = c! '{' ∨ c = c! '[' := by rw [hcv]; exact isCont_cons
  have hv' : m.val ++ (m.post ++ r) = c :: (q ++ (m.post ++ r)) := by rw [hcv]; rfl
  refine ⟨L - (c :: (q ++ (m.post ++ r))).length, ?_⟩
  rw [e1, gObjLoop_ws dive L path a1, gObjLoop_key dive L path h1 h2, keyText_lit hb, ← hs, h3, hv']
  simp only [tokVal, mkVal_exists]
  have hne : decide (m.val ≠ []) = true := by simpa using isValue_ne_nil hv
  rw [gObjLoop_ws dive L path a5]
  simp only [hc, hne, if_true]
  rfl

/-- The loop of `get_obj` over members whose keys do not match. -/
theorem gObjLoop_miss (dive : Bytes → Res (Value × Path)) (L : Nat) (path : Path) {ms : List Member} {r : Bytes}
    (hw : ∀ m ∈ ms, m.Wf) (hv : ∀ m ∈ ms, IsValue m.val)
    (hm : ∀ m ∈ ms, ∃ s, KeyIs m.key s ∧ pKeyMatch s path = false) :
    gObjLoop dive L path (membersText ms ++ c! '}' :: r) = .ok (Value.default, path) := by
  induction ms with
  | nil => exact gObjLoop_close _ _ _ _
  | cons m ms ih =>
    obtain ⟨s, h1, h2⟩ := hm m (by simp)
    have ih' := ih (fun x hx => hw x (List.mem_cons_of_mem _ hx)) (fun x hx => hv x (List.mem_cons_of_mem _ hx))
      (fun x hx => hm x (List.mem_cons_of_mem _ hx))
    cases ms with
    | nil =>
      obtain ⟨i, h⟩ := gObjLoop_member dive L path (r := c! '}' :: r) (hw m (by simp)) (hv m (by simp)) (.cons (by grind)) h1
      rw [membersText, h, h2, if_neg (by simp), gObjLoop_close]
    | cons m' ms =>
      have e1 : membersText (m :: m' :: ms) ++ c! '}' :: r =
          m.text ++ (c! ',' :: (membersText (m' :: ms) ++ c! '}' :: r)) := by simp [membersText]
      obtain ⟨i, h⟩ := gObjLoop_member dive L path (r := c! ',' :: (membersText (m' :: ms) ++ c! '}' :: r))
        (hw m (by simp)) (hv m (by simp)) .comma h1
      rw [e1, h, h2, if_neg (by simp), gObjLoop_skip _ _ _ _ (by decide) (by decide), ih']

/-- The loop of `get_obj` up to the first member whose key matches. -/
theorem gObjLoop_hit (dive : Bytes → Res (Value × Path)) (L : Nat) (path : Path) {kl v s r : Bytes}
    {after : List (Bytes × Bytes)} (hs : KeyIs kl s) (hm : pKeyMatch s path = true) :
    ∀ {ms : List Member} {before : List (Bytes × Bytes)}, (∀ m ∈ ms, m.Wf) → (∀ m ∈ ms, IsValue m.val) →
    (∀ m ∈ before, ∃ s, KeyIs m.1 s ∧ pKeyMatch s path = false) →
    ms.map (fun m => (m.key, m.val)) = before ++ (kl, v) :: after →
    IsValue v ∧ ∃ i a m q, Follow q ∧ membersText ms ++ c! '}' :: r = a ++ (kl ++ (m ++ (v ++ q))) ∧
      gObjLoop dive L path (membersText ms ++ c! '}' :: r) =
        if path.dives ∧ IsCont v then do
          let (res, p) ← dive (v ++ q)
          if res.exists then .ok (res, p) else gObjLoop dive L path (v ++ q)
        else .ok (leafVal (some i) v, path) := by
  intro ms
  induction ms with
  | nil => intro before _ _ _ h; simp at h
  | cons m ms ih =>
    intro before hw hv hb he
    have hw1 := hw m (by simp)
    have hv1 := hv m (by simp)
    obtain ⟨t, ht, e1⟩ : ∃ t, Follow t ∧ (membersText (m :: ms) ++ c! '}' :: r = m.text ++ t) ∧
        gObjLoop dive L path t = gObjLoop dive L path (membersText ms ++ c! '}' :: r) ∧
        (ms ≠ [] → t = c! ',' :: (membersText ms ++ c! '}' :: r)) := by
      cases ms with
      | nil => exact ⟨c! '}' :: r, .cons (by grind), rfl, rfl, by simp⟩
      | cons m' ms =>
        exact ⟨c! ',' :: (membersText (m' :: ms) ++ c! '}' :: r), .comma, by simp [membersText],
          gObjLoop_skip _ _ _ _ (by decide) (by decide), fun _ => rfl⟩
    rw [e1.1]
    cases before with
    | nil =>
      simp only [List.map_cons, List.nil_append, List.cons.injEq, Prod.mk.injEq] at he
      obtain ⟨⟨rfl, rfl⟩, _⟩ := he
      obtain ⟨i, h⟩ := gObjLoop_member dive L path hw1 hv1 ht hs
      refine ⟨hv1, i, m.pre, m.mid1 ++ c! ':' :: m.mid2, m.post ++ t, Follow.ws hw1.2.2.2.2 ht, ?_, ?_⟩
      · simp [Member.text]
      · rw [h, hm, if_pos rfl]
    | cons b before =>
      simp only [List.map_cons, List.cons_append, List.cons.injEq] at he
      obtain ⟨rfl, he⟩ := he
      obtain ⟨s', h1, h2⟩ := hb _ List.mem_cons_self
      obtain ⟨i, h⟩ := gObjLoop_member dive L path hw1 hv1 ht h1
      rw [h, h2, if_neg (by simp), e1.2.1]
      obtain ⟨x1, i', a, mm, q, x2, x3, x4⟩ := ih (before := before) (fun x hx => hw x (List.mem_cons_of_mem _ hx))
        (fun x hx => hv x (List.mem_cons_of_mem _ hx)) (fun x hx => hb x (List.mem_cons_of_mem _ hx)) he
      have hne : ms ≠ [] := by rintro rfl; simp at he
      refine ⟨x1, i', m.text ++ c! ',' :: a, mm, q, x2, ?_, x4⟩
      rw [e1.2.2 hne, x3]; simp

/-! ### Values inside values -/

/-- The search of a container with the next component. -/
def gCont (rec : GetFn) (L : Nat) (path : Path) (s : Bytes) : Res (Value × Path) :=
  if s.head? = some c! '{' then gObj rec L path s else gArr rec L false path s

theorem gObj_cons (rec : GetFn) (L : Nat) (path : Path) (q : Bytes) :
    gObj rec L path (c! '{' :: q) = gObjLoop (fun v =>
      if path.dives then gCont rec L (pNext path.extra) v else .ok (Value.default, path)) L path q := by
  rw [gObj.eq_def]
  simp only
  rw [if_neg (by decide)]
  congr 1

theorem gStart_ws (rec : GetFn) (L : Nat) (path : Path) {w s : Bytes} (h : Ws w) :
    gStart rec L path (w ++ s) = gStart rec L path s := by
  induction w with
  | nil => rfl
  | cons c w ih =>
    rw [List.cons_append, gStart, if_pos (ws_le (h c (by simp))), ih fun x hx => h x (by simp [hx])]

theorem gStart_cont (rec : GetFn) (L : Nat) (path : Path) {v q : Bytes} (hc : IsCont v) :
    gStart rec L path (v ++ q) = gCont rec L path (v ++ q) := by
  cases v with
  | nil => unfold IsCont kindOf at hc; simp at hc
  | cons c r =>
    rw [isCont_cons] at hc
    rw [List.cons_append, gStart, gCont]
    rcases hc with rfl | rfl
    · rw [if_neg (by decide), if_pos rfl, if_pos (by rfl)]
    · rw [if_neg (by decide), if_neg (by decide), if_pos rfl, if_neg (by simp)]

theorem SameAsText.of_same {v w : Value} {t : Bytes} (h : SameAsText w t) (hs : SameValue v w) : SameAsText v t := by
  obtain ⟨h1, h2, u, h3, h4⟩ := h
  exact ⟨hs.json.trans h1, hs.kind.trans h2, u, h3, hs.trans h4⟩

theorem getIn_slice {rec : GetFn} {v : Value} (h : v.slice ≠ []) (path : Bytes) :
    getIn rec v path = (rec v.slice path >>= fun r => .ok (addIndex v.index r)) := by
  unfold getIn
  rw [if_pos (List.length_pos_iff.2 h)]

/-- The elements of an array as `get_arr` sees them. -/
theorem array_toks {t vs} (h : IsArray t vs) (q : Bytes) (i : Nat) :
    Aligned SameAsText (eachToks i false (t ++ q)) vs := by
  obtain ⟨r, h1, h2⟩ := IsArray.vals (r := q) h i
  rw [h1]
  simpa [eachToks] using h2

theorem aligned_get {α β : Type} {R : α → β → Prop} {as : List α} {bs : List β} (h : Aligned R as bs) :
    ∀ {n : Nat} {b : β}, bs[n]? = some b → ∃ a, as[n]? = some a ∧ R a b := by
  induction h with
  | nil => intro n b hb; simp at hb
  | cons h _ ih =>
    intro n b hb
    cases n with
    | zero => simp at hb; subst hb; exact ⟨_, rfl, h⟩
    | succ n => simp at hb ⊢; exact ih hb

theorem aligned_length {α β : Type} {R : α → β → Prop} {as : List α} {bs : List β} (h : Aligned R as bs) :
    as.length = bs.length := by
  induction h with
  | nil => rfl
  | cons _ _ ih => simp [ih]

theorem digit_first {n : Nat} : ∃ c r, numeral n = c :: r ∧ IsDigit c := by
  obtain ⟨h1, h2, _⟩ := numeral_spec n
  cases h : numeral n with
  | nil => exact absurd h h1
  | cons c r => exact ⟨c, r, rfl, h2 c (by rw [h]; simp)⟩

theorem plainKey_numeral (n : Nat) : PlainKey (numeral n) ∧ numeral n ≠ [] := by
  obtain ⟨h1, h2, _⟩ := numeral_spec n
  refine ⟨⟨fun c hc => ?_, fun c hc => ?_⟩, h1⟩
  · have := h2 c hc
    unfold IsDigit at this; unfold pathSpecial
    simp only [List.mem_cons, List.not_mem_nil, or_false]; grind
  · have := h2 c (List.mem_of_mem_head? hc)
    unfold IsDigit at this; unfold pathStart
    simp only [List.mem_cons, List.not_mem_nil, or_false]; grind

theorem numeral_inj {m n : Nat} (h : numeral m = numeral n) : m = n := by
  rw [← (numeral_spec m).2.2.1, ← (numeral_spec n).2.2.1, h]

/-- `get_arr` with a plain component. -/
theorem gArrVals_key (rec : GetFn) {k : Bytes} (hk : PlainKey k) (sep : UInt8) (rest : Bytes) (vals : List Value) :
    gArrVals rec (plainPath k sep rest) vals =
      .ok (if (parseI64 k).getD (-1) < 0 then Value.default else vals.getD ((parseI64 k).getD (-1)).toNat Value.default,
        plainPath k sep rest) := by
  unfold gArrVals
  have e : (plainPath k sep rest).comp = k := rfl
  simp only [e]
  cases k with
  | nil => rfl
  | cons c r =>
    have := PlainKey.first hk
    simp only
    rw [if_neg this.2.1]

theorem decDigits_some {ds : Bytes} : ∀ {a n : Nat}, decDigits a ds = some n → ∀ c ∈ ds, IsDigit c := by
  induction ds with
  | nil => intro a n _ c hc; simp at hc
  | cons d ds ih =>
    intro a n h c hc
    unfold decDigits at h
    split at h
    · rename_i hd
      rcases List.mem_cons.1 hc with rfl | hc
      · exact (isDigit_iff c).1 hd
      · exact ih h c hc
    · simp at h

theorem parseNat_some {ds : Bytes} {n : Nat} (h : parseNat ds = some n) :
    ds ≠ [] ∧ (∀ c ∈ ds, IsDigit c) ∧ decVal ds = n := by
  unfold parseNat at h
  split at h
  · simp at h
  · rename_i h0
    have hd := decDigits_some h
    refine ⟨h0, hd, ?_⟩
    rw [decDigits_eq hd] at h
    simpa [decVal] using h

/-- Which components are array indexes. -/
theorem index_iff {k : Bytes} {n : Nat} : (IndexText k n ∧ n < 2 ^ 63) ↔ parseI64 k = some (n : Int) := by
  constructor
  · rintro ⟨⟨ds, h1, h2, h3, h4⟩, hn⟩
    rcases h4 with rfl | rfl | ⟨rfl, h5⟩
    · rw [parseI64_pos h1 h2 (by omega), h3]
    · unfold parseI64
      simp only
      rw [if_neg (by decide), if_pos trivial, parseNat_eq h1 h2]
      simp only
      rw [if_pos (by omega), h3]
    · rw [parseI64_neg h1 h2 (by omega), h3]; simp [h5]
  · intro h
    unfold parseI64 at h
    cases k with
    | nil => simp at h
    | cons c r =>
      simp only at h
      split at h
      · rename_i hc
        cases hp : parseNat r with
        | none => rw [hp] at h; simp at h
        | some m =>
          rw [hp] at h
          simp only at h
          split at h
          · obtain ⟨a1, a2, a3⟩ := parseNat_some hp
            simp only [Option.some.injEq] at h
            exact ⟨⟨r, a1, a2, by omega, .inr (.inr ⟨by rw [hc], by omega⟩)⟩, by omega⟩
          · simp at h
      · cases hp : parseNat (if c = c! '+' then r else c :: r) with
        | none => rw [hp] at h; simp at h
        | some m =>
          rw [hp] at h
          simp only at h
          split at h
          · obtain ⟨a1, a2, a3⟩ := parseNat_some hp
            simp only [Option.some.injEq] at h
            refine ⟨⟨_, a1, a2, by omega, ?_⟩, by omega⟩
            split
            · rename_i hc; exact .inr (.inl (by rw [hc]))
            · exact .inl rfl
          · simp at h

/-- `get_arr` with an index. -/
theorem gArrVals_index (rec : GetFn) {k : Bytes} {n : Nat} (hk : PlainKey k) (hi : IndexText k n) (hn : n < 2 ^ 63)
    (sep : UInt8) (rest : Bytes) (vals : List Value) :
    gArrVals rec (plainPath k sep rest) vals = .ok (vals.getD n Value.default, plainPath k sep rest) := by
  rw [gArrVals_key rec hk, index_iff.1 ⟨hi, hn⟩]
  simp
  omega

/-- `get_arr` with a plain component that is no index. -/
theorem gArrVals_noindex (rec : GetFn) {k : Bytes} (hk : PlainKey k) (hi : ¬ ∃ n, IndexText k n ∧ n < 2 ^ 63)
    (sep : UInt8) (rest : Bytes) (vals : List Value) :
    gArrVals rec (plainPath k sep rest) vals = .ok (Value.default, plainPath k sep rest) := by
  rw [gArrVals_key rec hk]
  cases hp : parseI64 k with
  | none => rfl
  | some z =>
    simp only [Option.getD_some]
    by_cases hz : z < 0
    · rw [if_pos hz]
    · exact absurd ⟨z.toNat, index_iff.2 (by rw [hp]; congr 1; omega)⟩ hi

theorem indexText_numeral (n : Nat) : IndexText (numeral n) n := by
  obtain ⟨h1, h2, h3, _⟩ := numeral_spec n
  exact ⟨_, h1, h2, h3, .inl rfl⟩

theorem pKeyMatch_plain (s k : Bytes) (sep : UInt8) (rest : Bytes) :
    pKeyMatch s (plainPath k sep rest) = decide (s = k) := by
  unfold pKeyMatch plainPath; simp

/-- Splitting an object text for the loop. -/
theorem isObject_loop {t q : Bytes} {kvs : List (Bytes × Bytes)} (h : IsObject t kvs) :
    ∃ w ms, Ws w ∧ t ++ q = c! '{' :: (w ++ (membersText ms ++ c! '}' :: q)) ∧ (∀ m ∈ ms, m.Wf) ∧
      (∀ m ∈ ms, IsValue m.val) ∧ ms.map (fun m => (m.key, m.val)) = kvs := by
  rcases h with ⟨w, hw, rfl, rfl⟩ | ⟨ms, hne, hwf, hv, rfl, rfl⟩
  · exact ⟨w, [], hw, by simp [membersText], by simp, by simp, rfl⟩
  · exact ⟨[], ms, Ws.nil, by simp, hwf, hv, rfl⟩

theorem gCont_obj (rec : GetFn) (L : Nat) (path : Path) {t q : Bytes} {kvs : List (Bytes × Bytes)} (h : IsObject t kvs) :
    ∃ ms, (∀ m ∈ ms, m.Wf) ∧ (∀ m ∈ ms, IsValue m.val) ∧ ms.map (fun m => (m.key, m.val)) = kvs ∧
      (∃ a, t ++ q = a ++ (membersText ms ++ c! '}' :: q)) ∧
      gCont rec L path (t ++ q) = gObjLoop (fun v =>
        if path.dives then gCont rec L (pNext path.extra) v else .ok (Value.default, path)) L path
          (membersText ms ++ c! '}' :: q) := by
  obtain ⟨w, ms, h1, h2, h3, h4, h5⟩ := isObject_loop (q := q) h
  refine ⟨ms, h3, h4, h5, ⟨c! '{' :: w, by rw [h2]; simp⟩, ?_⟩
  rw [h2, gCont, if_pos (by rfl), gObj_cons, gObjLoop_ws _ _ _ h1]

theorem gCont_arr (rec : GetFn) (L : Nat) (path : Path) {t q : Bytes} {vs : List Bytes} (h : IsArray t vs) :
    gCont rec L path (t ++ q) = gArrVals rec path (eachToks (L - (t ++ q).length) false (t ++ q)) := by
  obtain ⟨r, h1, _⟩ := IsArray.vals (r := q) h 0
  rw [gCont, h1, if_neg (by simp)]
  rfl

theorem IsArray.isCont {t vs} (h : IsArray t vs) : IsCont t := .inr (IsArray.kindOf h)
theorem IsObject.isCont {t kvs} (h : IsObject t kvs) : IsCont t := .inl (IsObject.kindOf h)

theorem plain_more (k : Bytes) (sep : UInt8) (rest : Bytes) : (plainPath k sep rest).more = decide (sep ≠ 0) := by
  unfold plainPath Path.more; simp

/-! ### Dot paths -/

/-- Components that can be written in a dot path. -/
def PlainComps (ks : List Bytes) : Prop := ∀ k ∈ ks, PlainKey k ∧ k ≠ []

theorem PlainComps.tail {k : Bytes} {ks : List Bytes} (h : PlainComps (k :: ks)) : PlainComps ks :=
  fun x hx => h x (List.mem_cons_of_mem _ hx)

/-- `get` on a container, given its search. -/
theorem get_of_cont {v doc : Bytes} {k : Bytes} {ks : List Bytes} (hk : PlainKey k) (hne : k ≠ [] ∨ ks = [])
    (hc : IsCont v) (hp : Padded v doc) :
    ∃ q L, Follow q ∧ q <:+ doc ∧ v ++ q <:+ doc ∧
      get doc (dotPath (k :: ks)) = (gCont get L (pNext (dotPath (k :: ks))) (v ++ q) >>= finish) := by
  obtain ⟨w1, w2, h1, h2, rfl⟩ := hp
  refine ⟨w2, (w1 ++ (v ++ w2)).length, Follow.ws' h2, ⟨w1 ++ v, by simp⟩, ⟨w1, rfl⟩, ?_⟩
  rw [get_dot hk hne, ← pNext_dot hk, gStart_ws _ _ _ h1, gStart_cont _ _ _ hc]

theorem padded_self (v : Bytes) : Padded v v := ⟨[], [], Ws.nil, Ws.nil, by simp⟩

theorem resolves_search {v r : Bytes} {ks : List Bytes} (h : Resolves KeyIs v ks r) :
    PlainComps ks → ks ≠ [] → IsCont v ∧ ∀ L q, Follow q →
      ∃ val p w, gCont get L (pNext (dotPath ks)) (v ++ q) = .ok (val, p) ∧ val.exists = true ∧
        finish (val, p) = .ok w ∧ SameAsText w r := by
  induction h with
  | here => intro _ h; exact absurd rfl h
  | @key t kl k v r ks before after ho hb hkl hr ih =>
    intro hp _
    have hk := (hp k (by simp)).1
    refine ⟨IsObject.isCont ho, fun L q hq => ?_⟩
    obtain ⟨ms, h1, h2, h3, _, h5⟩ := gCont_obj get L (pNext (dotPath (k :: ks))) (q := q) ho
    rw [h5, pNext_dot hk]
    obtain ⟨hv', i, a, m, q', x1, x2, x3⟩ := gObjLoop_hit (fun v =>
        if (plainPath k (if ks = [] then 0 else c! '.') (dotPath ks)).dives then
          gCont get L (pNext (plainPath k (if ks = [] then 0 else c! '.') (dotPath ks)).extra) v
        else .ok (Value.default, (plainPath k (if ks = [] then 0 else c! '.') (dotPath ks)))) L
      (plainPath k (if ks = [] then 0 else c! '.') (dotPath ks)) (r := q) hkl
      (by rw [pKeyMatch_plain]; simp) h1 h2
      (fun m hm => by
        obtain ⟨s, y1, y2⟩ := hb m hm
        exact ⟨s, y1, by rw [pKeyMatch_plain]; simp [y2]⟩) h3
    rw [x3]
    cases ks with
    | nil =>
      rw [if_neg (by rw [last_dives _ (by decide)]; simp)]
      cases hr
      refine ⟨_, _, leafVal (some i) v, rfl, ?_, ?_, leaf_sameAsText hv' _⟩
      · rw [leafVal, mkVal_exists]; simpa using isValue_ne_nil hv'
      · unfold finish; rw [plain_more]; rfl
    | cons k' ks =>
      obtain ⟨hc, hs⟩ := ih hp.tail (by simp)
      obtain ⟨val, p, w, z1, z2, z3, z4⟩ := hs L q' x1
      have hd := plain_dives (k := k) (ks := ks) (hp.tail k' (by simp)).1
      simp only [if_neg (List.cons_ne_nil k' ks)]
      rw [if_pos ⟨hd, hc⟩, if_pos hd]
      refine ⟨val, p, w, ?_, z2, z3, z4⟩
      have e : (plainPath k (c! '.') (dotPath (k' :: ks))).extra = dotPath (k' :: ks) := rfl
      rw [e, z1]
      simp only [ok_bind, z2, if_true]
  | @index t k v r ks vs n ha hidx hlt hn hr ih =>
    intro hp _
    have hk := (hp k (by simp)).1
    refine ⟨IsArray.isCont ha, fun L q hq => ?_⟩
    rw [gCont_arr get L _ ha, pNext_dot hk, gArrVals_index _ hk hidx hlt]
    obtain ⟨e, he, hs⟩ := aligned_get (array_toks ha q (L - (t ++ q).length)) hn
    have hmem := List.mem_of_getElem? he
    obtain ⟨x1, x2⟩ := eachToks_exist _ _ _ e hmem
    have hgd : (eachToks (L - (t ++ q).length) false (t ++ q)).getD n Value.default = e := by
      rw [List.getD_eq_getElem?_getD, he]; rfl
    rw [hgd]
    cases ks with
    | nil =>
      cases hr
      refine ⟨_, _, e, rfl, x1, ?_, hs⟩
      unfold finish; rw [plain_more]; rfl
    | cons k' ks =>
      obtain ⟨hc, hs'⟩ := ih hp.tail (by simp)
      obtain ⟨q', L', y1, _, _, y2⟩ := get_of_cont (ks := ks) (hp.tail k' (by simp)).1 (.inl (hp.tail k' (by simp)).2) hc
        (padded_self v)
      obtain ⟨val, p, w, z1, z2, z3, z4⟩ := hs' L' q' y1
      have hj : e.slice = v := by rw [← x2]; exact hs.1
      have hv0 : v ≠ [] := by rintro rfl; revert hc; decide
      refine ⟨_, _, addIndex e.index w, rfl, x1, ?_, z4.of_same (sameValue_addIndex _ _)⟩
      unfold finish
      rw [plain_more, if_neg (List.cons_ne_nil k' ks)]
      have ee : (plainPath k (c! '.') (dotPath (k' :: ks))).extra = dotPath (k' :: ks) := rfl
      simp only [ee]
      rw [if_neg (by decide), getIn_slice (by rw [hj]; exact hv0), hj, y2, z1]
      simp only [ok_bind, z3]

theorem resolves_get {v r doc : Bytes} {ks : List Bytes} (h : Resolves KeyIs v ks r) (hp : PlainComps ks)
    (hne : ks ≠ []) (hd : Padded v doc) :
    ∃ w, get doc (dotPath ks) = .ok w ∧ SameAsText w r := by
  obtain ⟨hc, hs⟩ := resolves_search h hp hne
  cases ks with
  | nil => exact absurd rfl hne
  | cons k ks =>
    obtain ⟨q, L, y1, _, _, y2⟩ := get_of_cont (ks := ks) (hp k (by simp)).1 (.inl (hp k (by simp)).2) hc hd
    obtain ⟨val, p, w, z1, z2, z3, z4⟩ := hs L q y1
    exact ⟨w, by rw [y2, z1]; exact z3, z4⟩

end Gjson
