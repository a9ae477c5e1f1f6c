import Verif.SpecSearch
import Verif.Lemmas.Dot
import Verif.Lemmas.Handed
/-
The search for a dot path follows `Spec.Find`.
-/
namespace Gjson
open Spec

theorem kind_str {v : Bytes} (hv : IsValue v) (h : kindOf v = .string) : StrLit v := by
  cases hv with
  | null => exact absurd h (by decide)
  | «true» => exact absurd h (by decide)
  | «false» => exact absurd h (by decide)
  | str h => exact h
  | num h' =>
    obtain ⟨c, q, rfl, hs⟩ := NumLit.cons h'
    unfold kindOf at h
    unfold IsDigit at hs
    grind
  | arrEmpty => simp [kindOf] at h
  | arr => simp [kindOf] at h
  | objEmpty => simp [kindOf] at h
  | obj => simp [kindOf] at h

theorem kind_skips {v : Bytes} (hv : IsValue v) (h1 : kindOf v ≠ .string) (h2 : kindOf v ≠ .object) (h3 : kindOf v ≠ .array) :
    ∀ c ∈ v, c ≠ c! '"' ∧ c ≠ c! '}' := by
  cases hv with
  | null => decide
  | «true» => decide
  | «false» => decide
  | str h => obtain ⟨b, _, rfl⟩ := h; simp [kindOf] at h1
  | num h' => exact num_skips h'
  | arrEmpty => simp [kindOf] at h3
  | arr => simp [kindOf] at h3
  | objEmpty => simp [kindOf] at h2
  | obj => simp [kindOf] at h2

section
variable {d : Bytes → Res (Value × Path)} {L : Nat} {p : Path}

/-- The loop of `get_obj`, from the text `s` on, meets these entries. -/
inductive Meets (d : Bytes → Res (Value × Path)) (L : Nat) (p : Path) : Bytes → List Seen → Prop
  | nil {s : Bytes} : gObjLoop d L p s = .ok (Value.default, p) → Meets d L p s []
  | stop {s : Bytes} {es : List Seen} : gObjLoop d L p s = .ok (Value.default, p) → Meets d L p s (.stop :: es)
  | member {s r : Bytes} {m : Member} {es : List Seen} : m.Wf → IsValue m.val → Stop r →
      gObjLoop d L p s = gObjLoop d L p (m.text ++ r) → Meets d L p r es → Meets d L p s (.member m.key m.val :: es)

theorem Meets.congr {s s' : Bytes} {es : List Seen} (h : Meets d L p s es) (e : gObjLoop d L p s' = gObjLoop d L p s) :
    Meets d L p s' es := by
  cases h with
  | nil h => exact .nil (e.trans h)
  | stop h => exact .stop (e.trans h)
  | member h1 h2 h3 h4 h5 => exact .member h1 h2 h3 (e.trans h4) h5

/-- Values one after the other, with nothing of interest in between. -/
inductive Run (d : Bytes → Res (Value × Path)) (L : Nat) (p : Path) (q : Bytes) : List Bytes → Bytes → Prop
  | nil {s : Bytes} : gObjLoop d L p s = gObjLoop d L p q → Run d L p q [] s
  | cons {v s s' : Bytes} {vs : List Bytes} : IsValue v → gObjLoop d L p s = gObjLoop d L p (v ++ s') → Stop s' →
      Run d L p q vs s' → Run d L p q (v :: vs) s

theorem Run.congr {q s s' : Bytes} {vs : List Bytes} (h : Run d L p q vs s) (e : gObjLoop d L p s' = gObjLoop d L p s) :
    Run d L p q vs s' := by
  cases h with
  | nil h => exact .nil (e.trans h)
  | cons h1 h2 h3 h4 => exact .cons h1 (e.trans h2) h3 h4

theorem run_elems {q s : Bytes} {vs : List Bytes} {es : List Elem} (hw : ∀ e ∈ es, e.Wf) (hv : ∀ e ∈ es, IsValue e.val)
    (h : Run d L p q vs s) : Run d L p q (es.map Elem.val ++ vs) (elemsText es ++ c! ']' :: s) := by
  induction es with
  | nil => exact h.congr (gObjLoop_skip _ _ _ _ (by decide) (by decide))
  | cons e es ih =>
    have ih' := ih (fun x hx => hw x (List.mem_cons_of_mem _ hx)) (fun x hx => hv x (List.mem_cons_of_mem _ hx))
    obtain ⟨h1, h2⟩ := hw e (by simp)
    obtain ⟨t, ht1, ht2, ht3⟩ : ∃ t, Stop t ∧ elemsText (e :: es) ++ c! ']' :: s = e.text ++ t ∧
        gObjLoop d L p t = gObjLoop d L p (elemsText es ++ c! ']' :: s) := by
      cases es with
      | nil => exact ⟨c! ']' :: s, .cons (by simp), rfl, rfl⟩
      | cons e' es => exact ⟨c! ',' :: (elemsText (e' :: es) ++ c! ']' :: s), .cons (by simp), by simp [elemsText],
          gObjLoop_skip _ _ _ _ (by decide) (by decide)⟩
    rw [ht2]
    refine .cons (s' := e.post ++ t) (hv e (by simp)) ?_ (ht1.ws h2) (ih'.congr ?_)
    · unfold Elem.text
      simp only [List.append_assoc]
      rw [gObjLoop_ws _ _ _ h1]
    · rw [gObjLoop_ws _ _ _ h2, ht3]

theorem run_array {q s v : Bytes} {vs ws : List Bytes} (ha : IsArray v ws) (h : Run d L p q vs s) :
    Run d L p q (ws ++ vs) (v ++ s) := by
  rcases ha with ⟨w, hw, rfl, rfl⟩ | ⟨es, hne, hwf, hv, rfl, rfl⟩
  · refine h.congr ?_
    have e : c! '[' :: (w ++ [c! ']']) ++ s = c! '[' :: (w ++ c! ']' :: s) := by simp
    rw [e, gObjLoop_skip _ _ _ _ (by decide) (by decide), gObjLoop_ws _ _ _ hw, gObjLoop_skip _ _ _ _ (by decide) (by decide)]
  · have e : c! '[' :: (elemsText es ++ [c! ']']) ++ s = c! '[' :: (elemsText es ++ c! ']' :: s) := by simp
    rw [e]
    exact (run_elems hwf hv h).congr (gObjLoop_skip _ _ _ _ (by decide) (by decide))

theorem ent_members {q : Bytes} {ms : List Member} {es : List Seen} (hw : ∀ m ∈ ms, m.Wf) (hv : ∀ m ∈ ms, IsValue m.val)
    (h : Meets d L p (c! '}' :: q) es) :
    Meets d L p (membersText ms ++ c! '}' :: q) ((ms.map fun m => (m.key, m.val)).map (fun m => .member m.1 m.2) ++ es) := by
  induction ms with
  | nil => exact h
  | cons m ms ih =>
    have ih' := ih (fun x hx => hw x (List.mem_cons_of_mem _ hx)) (fun x hx => hv x (List.mem_cons_of_mem _ hx))
    obtain ⟨t, ht1, ht2, ht3⟩ : ∃ t, Stop t ∧ membersText (m :: ms) ++ c! '}' :: q = m.text ++ t ∧
        gObjLoop d L p t = gObjLoop d L p (membersText ms ++ c! '}' :: q) := by
      cases ms with
      | nil => exact ⟨c! '}' :: q, .cons (by simp), rfl, rfl⟩
      | cons m' ms => exact ⟨c! ',' :: (membersText (m' :: ms) ++ c! '}' :: q), .cons (by simp), by simp [membersText],
          gObjLoop_skip _ _ _ _ (by decide) (by decide)⟩
    rw [ht2]
    exact .member (hw m (by simp)) (hv m (by simp)) ht1 rfl (ih'.congr ht3)

/-- Reading on through values meets the entries of `Spec.Met`. -/
theorem met_ent {q : Bytes} {vs : List Bytes} {es es' : List Seen} (hm : Met vs es') : ∀ {s : Bytes}, Run d L p q vs s →
    Meets d L p q es → Meets d L p s (es' ++ es) := by
  induction hm with
  | nil => intro s hr he; cases hr with | nil h => exact he.congr h
  | str hk =>
    intro s hr he
    cases hr with
    | cons h1 h2 h3 h4 => exact .stop (h2.trans (gObjLoop_string _ _ (kind_str h1 hk) h3))
  | scalar k1 k2 k3 _ ih =>
    intro s hr he
    cases hr with
    | cons h1 h2 h3 h4 => exact ih (h4.congr (h2.trans (gObjLoop_skips (kind_skips h1 k1 k2 k3) _ _ _))) he
  | obj ho =>
    intro s hr he
    cases hr with
    | @cons _ _ s' _ h1 h2 h3 h4 =>
      obtain ⟨w, ms, a1, a2, a3, a4, rfl⟩ := isObject_loop (q := s') ho
      have := ent_members (d := d) (L := L) (p := p) (q := s') (es := .stop :: es) a3 a4 (.stop (gObjLoop_close _ _ _ _))
      rw [List.append_assoc]
      refine this.congr (h2.trans ?_)
      rw [a2, gObjLoop_skip _ _ _ _ (by decide) (by decide), gObjLoop_ws _ _ _ a1]
  | arr ha _ ih =>
    intro s hr he
    cases hr with
    | cons h1 h2 h3 h4 => exact (ih (run_array ha h4) he).congr h2

end

/-! ### Outcomes -/

/-- What `get` returns for an outcome. -/
def Shows (w : Res Value) : Outcome → Prop
  | .found r => ∃ u, w = .ok u ∧ SameAsText u r
  | _ => ∃ u, w = .ok u ∧ SameValue u Value.default

/-- What the search returns for an outcome: nothing, or something that exists;
searching that for the rest of the path gives the result. -/
def Sees (x : Res (Value × Path)) (o : Outcome) : Prop :=
  ∃ u p, x = .ok (u, p) ∧ (u.exists = true ↔ o ≠ .miss) ∧ Shows (finish (u, p)) o

theorem shows_congr {x y : Res Value} {o : Outcome} (h : SameRes x y) (hy : Shows y o) : Shows x o := by
  cases o with
  | found r =>
    obtain ⟨u, rfl, h2⟩ := hy
    cases h with
    | ok h => exact ⟨_, rfl, h.json.trans h2.1, h.kind.trans h2.2.1, by
        obtain ⟨w, h3, h4⟩ := h2.2.2; exact ⟨w, h3, h.trans h4⟩⟩
  | lost =>
    obtain ⟨u, rfl, h2⟩ := hy
    cases h with
    | ok h => exact ⟨_, rfl, h.trans h2⟩
  | miss =>
    obtain ⟨u, rfl, h2⟩ := hy
    cases h with
    | ok h => exact ⟨_, rfl, h.trans h2⟩

theorem sameAsText_exists {u : Value} {t : Bytes} (h : SameAsText u t) (ht : t ≠ []) : u.exists = true := by
  cases hu : u.exists with
  | true => rfl
  | false =>
    obtain ⟨h1, h2⟩ := exists_false.1 hu
    refine absurd ?_ ht
    rw [← h.1]; unfold Value.json; simp [h1, h2]

theorem get_noCont_ord {ks : List Bytes} : ∀ {s : Bytes}, OrdComps ks → ks ≠ [] → NoCont s →
    ∃ w, get s (dotPath ks) = .ok w ∧ SameValue w Value.default := by
  induction ks with
  | nil => intro s _ h; exact absurd rfl h
  | cons k ks ih =>
    intro s ho _ hs
    have hk := ho k (by simp)
    rw [(get_dotOrd hk s []).1, gStart_noCont _ _ _ hs, ok_bind]
    obtain ⟨e, p, x1, x2⟩ := ord_next (ks := ks) [] hk
    unfold finish
    by_cases hks : ks = []
    · rw [(x1 hks).1]; exact ⟨_, rfl, SameValue.refl _⟩
    · rw [(x2 hks).1]
      obtain ⟨w, h1, h2⟩ := ih (s := []) (fun x hx => ho x (List.mem_cons_of_mem _ hx)) hks (by intro c hc; simp at hc)
      exact shows_congr (o := .miss) (getIn_same default_oneText (dotPath ks)) ⟨w, h1, h2⟩

/-- A search that went nowhere shows nothing. -/
theorem finish_miss {k : Bytes} {ks : List Bytes} (ho : OrdComps (k :: ks)) :
    ∃ w, finish (Value.default, pNext (dotPath (k :: ks))) = .ok w ∧ SameValue w Value.default := by
  obtain ⟨e, p, x1, x2⟩ := ord_next (ks := ks) [] (ho k (by simp))
  unfold finish
  by_cases hks : ks = []
  · rw [(x1 hks).1]; exact ⟨_, rfl, SameValue.refl _⟩
  · rw [(x2 hks).1]
    obtain ⟨w, h1, h2⟩ := get_noCont_ord (s := []) (fun x hx => ho x (List.mem_cons_of_mem _ hx)) hks (by intro c hc; simp at hc)
    exact shows_congr (o := .miss) (getIn_same default_oneText (dotPath ks)) ⟨w, h1, h2⟩

theorem sees_miss {k : Bytes} {ks : List Bytes} (ho : OrdComps (k :: ks)) :
    Sees (.ok (Value.default, pNext (dotPath (k :: ks)))) .miss :=
  ⟨Value.default, _, rfl, by simp, finish_miss ho⟩

/-- Going on in an element or a scalar with the rest of the path. -/
theorem sees_step {k : Bytes} {ks : List Bytes} {v : Value} {t : Bytes} {o : Outcome} (ho : OrdComp k) (hks : ks ≠ [])
    (hv : SameAsText v t) (ht : t ≠ []) (h1 : OneText v) (h : Shows (get t (dotPath ks)) o) :
    ∃ u p, (.ok (v, pNext (dotPath (k :: ks))) : Res (Value × Path)) = .ok (u, p) ∧ u.exists = true ∧ Shows (finish (u, p)) o := by
  refine ⟨_, _, rfl, sameAsText_exists hv ht, ?_⟩
  obtain ⟨e, p, _, x2⟩ := ord_next (ks := ks) [] ho
  rw [(x2 hks).1]
  unfold finish
  have := getIn_same h1 (dotPath ks)
  rw [hv.1] at this
  exact shows_congr this h

theorem sees_last {k : Bytes} {v : Value} {t : Bytes} (ho : OrdComp k) (hv : SameAsText v t) (ht : t ≠ []) :
    Sees (.ok (v, pNext (dotPath [k]))) (.found t) := by
  refine ⟨_, _, rfl, by simp [sameAsText_exists hv ht], ?_⟩
  obtain ⟨e, p, x1, _⟩ := ord_next (ks := []) [] ho
  rw [(x1 rfl).1]
  exact ⟨_, rfl, hv⟩

theorem ord_dives {k : Bytes} {ks : List Bytes} (ho : OrdComps (k :: ks)) :
    ((pNext (dotPath (k :: ks))).dives = true ↔ ks ≠ []) ∧ (ks ≠ [] → (pNext (dotPath (k :: ks))).extra = dotPath ks) := by
  obtain ⟨e, p, x1, x2⟩ := ord_next (ks := ks) [] (ho k (by simp))
  by_cases hks : ks = []
  · rw [(x1 hks).1]
    unfold Path.dives
    simp [hks]
  · rw [(x2 hks).1]
    obtain ⟨k', ks', rfl⟩ : ∃ k' ks', ks = k' :: ks' := by
      cases ks with
      | nil => exact absurd rfl hks
      | cons a b => exact ⟨a, b, rfl⟩
    obtain ⟨m1, m2⟩ := (ord_plain (ks := ks') [] (ho k' (by simp))).1
    unfold Path.dives
    simp [m1, m2]

theorem array_element {k : Bytes} {n : Nat} (hk : PlainFirst k) (e p : Bool) (sep : UInt8) (rest : Bytes) {vals : List Value}
    (hi : IndexText k n) (hn : n < 2 ^ 63) :
    gArrVals get ⟨k, e, p, sep, 0, rest⟩ vals = .ok (vals.getD n Value.default, ⟨k, e, p, sep, 0, rest⟩) := by
  rw [gArrVals_ord _ hk, index_iff.1 ⟨hi, hn⟩]
  simp only [Option.getD_some, Int.toNat_natCast]
  rw [if_neg (by omega)]

theorem array_beyond {k : Bytes} (hk : PlainFirst k) (e p : Bool) (sep : UInt8) (rest : Bytes) {vals : List Value}
    (h : ∀ n, IndexText k n → n < 2 ^ 63 → vals[n]? = none) :
    gArrVals get ⟨k, e, p, sep, 0, rest⟩ vals = .ok (Value.default, ⟨k, e, p, sep, 0, rest⟩) := by
  rw [gArrVals_ord _ hk]
  split
  · rfl
  · rename_i hn
    cases hi : parseI64 k with
    | none => rw [hi] at hn; simp at hn
    | some i =>
      rw [hi] at hn
      simp only [Option.getD_some] at hn ⊢
      have : parseI64 k = some ((i.toNat : Nat) : Int) := by rw [hi]; congr 1; omega
      obtain ⟨h1, h2⟩ := index_iff.2 this
      rw [List.getD_eq_getElem?_getD, h _ h1 h2]
      rfl

theorem compBody_noQuestion {k : Bytes} {e p : Bool} (h : CompBody k e p) (he : e = false) (hp : p = false) : c! '?' ∉ k := by
  induction h with
  | nil => simp
  | esc => cases he
  | wild => cases hp
  | plain hc _ ih =>
    have := ih he hp
    unfold Special IsSep at hc
    simp only [List.mem_cons, not_or]
    exact ⟨by grind, this⟩

theorem matches_code {k : Bytes} {e p : Bool} (h : CompBody k e p) (sep : UInt8) (rest s : Bytes) (n : Nat) :
    pKeyMatch s ⟨k, e, p, sep, n, rest⟩ = true ↔ MatchesE CodeEsc k s := by
  unfold pKeyMatch
  split
  · exact pm_iff k s
  · rename_i hn
    simp at hn
    obtain ⟨rfl, rfl⟩ := hn
    have he := compBody_plain h rfl rfl
    rw [codeEsc_iff (EscapedAs.noQuestion he (compBody_noQuestion h rfl rfl)), decide_eq_true_iff]
    exact (EscapedAs.matches he s).symm

/-! ### The search -/

/-- `Hit` says which keys the components of a path select. -/
def HitOk (Hit : Bytes → Bytes → Prop) (ks : List Bytes) : Prop :=
  ∀ k ∈ ks, ∀ kl s, KeyIs kl s → (Hit k kl ↔ MatchesE CodeEsc k s)

theorem HitOk.tail {Hit : Bytes → Bytes → Prop} {k : Bytes} {ks : List Bytes} (h : HitOk Hit (k :: ks)) : HitOk Hit ks :=
  fun x hx => h x (List.mem_cons_of_mem _ hx)

theorem OrdComps.tail {k : Bytes} {ks : List Bytes} (h : OrdComps (k :: ks)) : OrdComps ks :=
  fun x hx => h x (List.mem_cons_of_mem _ hx)

theorem hit_path {Hit : Bytes → Bytes → Prop} {k kl s : Bytes} {ks : List Bytes} (ho : OrdComps (k :: ks)) (hh : HitOk Hit (k :: ks))
    (hs : KeyIs kl s) : pKeyMatch s (pNext (dotPath (k :: ks))) = true ↔ Hit k kl := by
  have hk := ho k (by simp)
  rw [hh k (by simp) kl s hs]
  obtain ⟨⟨e, p, hc⟩, hf, _⟩ := hk
  by_cases hks : ks = []
  · subst hks
    rw [dotPath, (oneComp hc hf).next]
    exact matches_code hc _ _ _ _
  · obtain ⟨k', ks', rfl⟩ : ∃ k' ks', ks = k' :: ks' := by
      cases ks with
      | nil => exact absurd rfl hks
      | cons a b => exact ⟨a, b, rfl⟩
    rw [dotPath, pNext_comp hc hf (t := c! '.' :: dotPath (k' :: ks')) (sep := c! '.') (rest := dotPath (k' :: ks')) ⟨.inl rfl, rfl, rfl⟩]
    exact matches_code hc _ _ _ _

/-- The search of the value of a member, for the rest of the path. -/
def diveOf (L : Nat) (p : Path) (v : Bytes) : Res (Value × Path) :=
  if p.dives then gCont get L (pNext p.extra) v else .ok (Value.default, p)

theorem shows_of_sees {k : Bytes} {ks : List Bytes} {v : Bytes} {o : Outcome} (ho : OrdComp k) (hc : IsCont v)
    (h : ∀ L q, Stop q → Sees (gCont get L (pNext (dotPath (k :: ks))) (v ++ q)) o) : Shows (get v (dotPath (k :: ks))) o := by
  obtain ⟨u, p, h1, _, h3⟩ := h v.length [] (.ws' Ws.nil)
  rw [← gStart_cont _ _ _ hc, List.append_nil] at h1
  rw [(get_dotOrd ho v []).1, h1, ok_bind]
  exact h3

theorem scalar_shows {k v : Bytes} {ks : List Bytes} {o : Outcome} (hv : IsValue v) (hc : ¬ IsCont v) (ho : OrdComps (k :: ks))
    (hn : ∀ r, o ≠ .found r) : Shows (get v (dotPath (k :: ks))) o := by
  obtain ⟨w, h1, h2⟩ := get_noCont_ord ho (by simp) (noCont_scalar hv hc [])
  rw [List.append_nil] at h1
  cases o with
  | found r => exact absurd rfl (hn r)
  | lost => exact ⟨w, h1, h2⟩
  | miss => exact ⟨w, h1, h2⟩

theorem find_ne_nil {Hit : Bytes → Bytes → Prop} {v : Bytes} {ks : List Bytes} {o : Outcome} (h : Find Hit v ks o) : ks ≠ [] := by
  cases h <;> simp

theorem shows_lost {x : Res Value} {o : Outcome} (h : Shows x o) (hn : ∀ r, o ≠ .found r) : Shows x .lost := by
  cases o with
  | found r => exact absurd rfl (hn r)
  | lost => exact h
  | miss => exact h

theorem gCont_beyond {k v : Bytes} {ks vs : List Bytes} (ho : OrdComp k) (harr : IsArray v vs)
    (hn : ∀ n, IndexText k n → n < 2 ^ 63 → vs[n]? = none) {L : Nat} {q : Bytes} :
    gCont get L (pNext (dotPath (k :: ks))) (v ++ q) = .ok (Value.default, pNext (dotPath (k :: ks))) := by
  rw [gCont_arr get L _ harr]
  have al := aligned_length (array_toks harr q (L - (v ++ q).length))
  have hn' : ∀ n, IndexText k n → n < 2 ^ 63 → (eachToks (L - (v ++ q).length) false (v ++ q))[n]? = none := by
    intro n h1 h2
    have := hn n h1 h2
    rw [List.getElem?_eq_none_iff] at this ⊢
    omega
  obtain ⟨e, p, x1, x2⟩ := ord_next (ks := ks) [] ho
  by_cases hks : ks = []
  · rw [(x1 hks).1, array_beyond ho.2.1 _ _ _ _ hn']
  · rw [(x2 hks).1, array_beyond ho.2.1 _ _ _ _ hn']

theorem gCont_element {k v t : Bytes} {ks vs : List Bytes} {n : Nat} (ho : OrdComp k) (harr : IsArray v vs)
    (hi : IndexText k n) (hn : n < 2 ^ 63) (ht : vs[n]? = some t) (L : Nat) (q : Bytes) :
    ∃ a, gCont get L (pNext (dotPath (k :: ks))) (v ++ q) = .ok (a, pNext (dotPath (k :: ks))) ∧ SameAsText a t ∧ OneText a := by
  rw [gCont_arr get L _ harr]
  obtain ⟨a, h1, h2⟩ := aligned_get (array_toks harr q (L - (v ++ q).length)) ht
  refine ⟨a, ?_, h2, (eachToks_prov _ _ _ a (List.mem_of_getElem? h1)).oneText⟩
  obtain ⟨e, p, x1, x2⟩ := ord_next (ks := ks) [] ho
  have hd : (eachToks (L - (v ++ q).length) false (v ++ q)).getD n Value.default = a := by
    rw [List.getD_eq_getElem?_getD, h1]; rfl
  by_cases hks : ks = []
  · rw [(x1 hks).1, array_element ho.2.1 _ _ _ _ hi hn, hd]
  · rw [(x2 hks).1, array_element ho.2.1 _ _ _ _ hi hn, hd]

/-- The loop of `get_obj` at one member, for a dot path. -/
theorem member_step {Hit : Bytes → Bytes → Prop} {k r : Bytes} {ks : List Bytes} {m : Member} (ho : OrdComps (k :: ks))
    (hh : HitOk Hit (k :: ks)) (L : Nat) (hw : m.Wf) (hv : IsValue m.val) (hr : Stop r) [Decidable (Hit k m.key)] :
    ∃ i, gObjLoop (diveOf L (pNext (dotPath (k :: ks)))) L (pNext (dotPath (k :: ks))) (m.text ++ r) =
      if Hit k m.key then
        if ks ≠ [] ∧ IsCont m.val then do
          let (res, p) ← gCont get L (pNext (dotPath ks)) (m.val ++ (m.post ++ r))
          if res.exists then .ok (res, p) else
            gObjLoop (diveOf L (pNext (dotPath (k :: ks)))) L (pNext (dotPath (k :: ks))) (m.val ++ (m.post ++ r))
        else .ok (leafVal (some i) m.val, pNext (dotPath (k :: ks)))
      else gObjLoop (diveOf L (pNext (dotPath (k :: ks)))) L (pNext (dotPath (k :: ks))) r := by
  obtain ⟨s, hs, _⟩ := keyIs_total hw.2.1
  obtain ⟨i, e⟩ := gObjLoop_member (diveOf L (pNext (dotPath (k :: ks)))) L (pNext (dotPath (k :: ks))) hw hv hr.follow hs
  refine ⟨i, e.trans ?_⟩
  simp only [hit_path ho hh hs, (ord_dives ho).1]
  split
  · split
    · rename_i hd
      unfold diveOf
      rw [if_pos ((ord_dives ho).1.2 hd.1), (ord_dives ho).2 hd.1]
    · rfl
  · rfl

open Classical in
mutual
theorem find_sees {Hit : Bytes → Bytes → Prop} {v : Bytes} {ks : List Bytes} {o : Outcome} (h : Find Hit v ks o) (hv : IsValue v)
    (ho : OrdComps ks) (hh : HitOk Hit ks) :
    (IsCont v → ∀ L q, Stop q → Sees (gCont get L (pNext (dotPath ks)) (v ++ q)) o) ∧ Shows (get v (dotPath ks)) o := by
  match h with
  | .scalar h1 h2 =>
    have hc : ¬ IsCont v := by unfold IsCont; rw [not_or]; exact ⟨h1, h2⟩
    exact ⟨fun h => absurd h hc, scalar_shows hv hc ho (by simp)⟩
  | .obj (k := k) (ks := ks') hobj hw =>
    have hs : ∀ L q, Stop q → Sees (gCont get L (pNext (dotPath (k :: ks'))) (v ++ q)) o := by
      intro L q _
      obtain ⟨ms, a1, a2, a3, _, a5⟩ := gCont_obj get L (pNext (dotPath (k :: ks'))) (q := q) hobj
      rw [a5]
      have he := ent_members (d := diveOf L (pNext (dotPath (k :: ks')))) (L := L) (p := pNext (dotPath (k :: ks'))) (q := q) (es := []) a1 a2
        (.nil (gObjLoop_close _ _ _ _))
      rw [a3, List.append_nil] at he
      exact walk_sees hw ho hh L _ he
    exact ⟨fun _ => hs, shows_of_sees (ho k (by simp)) (IsObject.isCont hobj) hs⟩
  | .beyond (k := k) (ks := ks') harr hn =>
    have hs : ∀ L q, Stop q → Sees (gCont get L (pNext (dotPath (k :: ks'))) (v ++ q)) .miss := by
      intro L q _
      rw [gCont_beyond (ho k (by simp)) harr hn]
      exact sees_miss ho
    exact ⟨fun _ => hs, shows_of_sees (ho k (by simp)) (IsArray.isCont harr) hs⟩
  | .last (k := k) (e := e) harr hi hn he =>
    have hs : ∀ L q, Stop q → Sees (gCont get L (pNext (dotPath [k])) (v ++ q)) (.found e) := by
      intro L q _
      obtain ⟨a, h1, h2, _⟩ := gCont_element (ks := []) (ho k (by simp)) harr hi hn he L q
      rw [h1]
      exact sees_last (ho k (by simp)) h2 (isValue_ne_nil (IsArray.mem_value harr _ (List.mem_of_getElem? he)).1)
    exact ⟨fun _ => hs, shows_of_sees (ho k (by simp)) (IsArray.isCont harr) hs⟩
  | .more (k := k) (ks := ks') (r := r) harr hi hn he hf =>
    have hev := (IsArray.mem_value harr _ (List.mem_of_getElem? he)).1
    have hg := (find_sees hf hev ho.tail hh.tail).2
    have hs : ∀ L q, Stop q → Sees (gCont get L (pNext (dotPath (k :: ks'))) (v ++ q)) (.found r) := by
      intro L q _
      obtain ⟨a, h1, h2, h3⟩ := gCont_element (ks := ks') (ho k (by simp)) harr hi hn he L q
      rw [h1]
      obtain ⟨u, p, h4, h5, h6⟩ := sees_step (ho k (by simp)) (find_ne_nil hf) h2 (isValue_ne_nil hev) h3 hg
      exact ⟨u, p, h4, by simp [h5], h6⟩
    exact ⟨fun _ => hs, shows_of_sees (ho k (by simp)) (IsArray.isCont harr) hs⟩
  | .none (k := k) (ks := ks') harr hi hn he hf hne =>
    have hev := (IsArray.mem_value harr _ (List.mem_of_getElem? he)).1
    have hg := shows_lost (find_sees hf hev ho.tail hh.tail).2 hne
    have hs : ∀ L q, Stop q → Sees (gCont get L (pNext (dotPath (k :: ks'))) (v ++ q)) .lost := by
      intro L q _
      obtain ⟨a, h1, h2, h3⟩ := gCont_element (ks := ks') (ho k (by simp)) harr hi hn he L q
      rw [h1]
      obtain ⟨u, p, h4, h5, h6⟩ := sees_step (ho k (by simp)) (find_ne_nil hf) h2 (isValue_ne_nil hev) h3 hg
      exact ⟨u, p, h4, by simp [h5], h6⟩
    exact ⟨fun _ => hs, shows_of_sees (ho k (by simp)) (IsArray.isCont harr) hs⟩
theorem walk_sees {Hit : Bytes → Bytes → Prop} {k : Bytes} {ks : List Bytes} {es : List Seen} {o : Outcome} (h : Walk Hit k ks es o)
    (ho : OrdComps (k :: ks)) (hh : HitOk Hit (k :: ks)) (L : Nat) (s : Bytes)
    (he : Meets (diveOf L (pNext (dotPath (k :: ks)))) L (pNext (dotPath (k :: ks))) s es) :
    Sees (gObjLoop (diveOf L (pNext (dotPath (k :: ks)))) L (pNext (dotPath (k :: ks))) s) o := by
  match h with
  | .nil => cases he with | nil h => rw [h]; exact sees_miss ho
  | .stop => cases he with | stop h => rw [h]; exact sees_miss ho
  | .skip hn hw =>
    have ih := fun s he => walk_sees hw ho hh L s he
    cases he with
    | member m1 m2 m3 m4 m5 =>
      obtain ⟨i, e⟩ := member_step ho hh L m1 m2 m3
      rw [m4, e, if_neg hn]
      exact ih _ m5
  | .last hit =>
    cases he with
    | member m1 m2 m3 m4 m5 =>
      obtain ⟨i, e⟩ := member_step ho hh L m1 m2 m3
      rw [m4, e, if_pos hit, if_neg (by simp)]
      exact sees_last (ho k (by simp)) (leaf_sameAsText m2 _) (isValue_ne_nil m2)
  | .scalar hit hne h1 h2 =>
    cases he with
    | @member _ _ m _ m1 m2 m3 m4 m5 =>
      have hc : ¬ IsCont m.val := by unfold IsCont; rw [not_or]; exact ⟨h1, h2⟩
      obtain ⟨i, e⟩ := member_step ho hh L m1 m2 m3
      rw [m4, e, if_pos hit, if_neg (fun h => hc h.2)]
      obtain ⟨k', ks', rfl⟩ : ∃ k' ks', ks = k' :: ks' := by
        cases ks with
        | nil => exact absurd rfl hne
        | cons a b => exact ⟨a, b, rfl⟩
      obtain ⟨u, p, h4, h5, h6⟩ := sees_step (ho k (by simp)) hne (leaf_sameAsText m2 (some i)) (isValue_ne_nil m2)
        (mkVal_oneText _ _ _) (scalar_shows (o := .lost) m2 hc ho.tail (by simp))
      exact ⟨u, p, h4, by simp [h5], h6⟩
  | .into hit hc hf hne =>
    have ih := fun hv => find_sees hf hv ho.tail hh.tail
    have hks := find_ne_nil hf
    cases he with
    | member m1 m2 m3 m4 m5 =>
      obtain ⟨i, e⟩ := member_step ho hh L m1 m2 m3
      rw [m4, e, if_pos hit, if_pos ⟨hks, hc⟩]
      obtain ⟨u, p, h1, h2, h3⟩ := (ih m2).1 hc L _ (m3.ws m1.2.2.2.2)
      rw [h1, ok_bind]
      simp only
      rw [if_pos (h2.2 hne)]
      exact ⟨u, p, rfl, h2, h3⟩
  | .again hit hc hf hm hw =>
    have ih := fun hv => find_sees hf hv ho.tail hh.tail
    have ihw := fun s he => walk_sees hw ho hh L s he
    have hks := find_ne_nil hf
    cases he with
    | member m1 m2 m3 m4 m5 =>
      obtain ⟨i, e⟩ := member_step ho hh L m1 m2 m3
      rw [m4, e, if_pos hit, if_pos ⟨hks, hc⟩]
      obtain ⟨u, p, h1, h2, h3⟩ := (ih m2).1 hc L _ (m3.ws m1.2.2.2.2)
      rw [h1, ok_bind]
      simp only
      rw [if_neg (fun h => h2.1 h rfl)]
      refine ihw _ (met_ent hm (.cons m2 rfl (m3.ws m1.2.2.2.2) (.nil ?_)) m5)
      exact gObjLoop_ws _ _ _ m1.2.2.2.2
end

/-! ### Every search has an outcome -/

/-- The size of entries. -/
def weight : List Seen → Nat
  | [] => 0
  | .stop :: es => weight es
  | .member _ v :: es => v.length + 1 + weight es

theorem weight_append (a b : List Seen) : weight (a ++ b) = weight a + weight b := by
  induction a with
  | nil => simp [weight]
  | cons x a ih => cases x <;> simp [weight, ih] <;> omega

/-- The size of values. -/
def sizes (vs : List Bytes) : Nat := (vs.map fun v => v.length + 1).sum

theorem elems_sizes (es : List Elem) : sizes (es.map Elem.val) ≤ (elemsText es).length + 1 := by
  induction es with
  | nil => simp [sizes, elemsText]
  | cons e es ih =>
    cases es with
    | nil => simp [sizes, elemsText, Elem.text]; omega
    | cons e' es =>
      simp only [sizes, List.map_cons, List.sum_cons, elemsText, Elem.text, List.length_append, List.length_cons] at ih ⊢
      omega

theorem members_weight (ms : List Member) :
    weight ((ms.map fun m => (m.key, m.val)).map fun m => .member m.1 m.2) ≤ (membersText ms).length + 1 := by
  induction ms with
  | nil => simp [weight]
  | cons e es ih =>
    cases es with
    | nil => simp [weight, membersText, Member.text]; omega
    | cons e' es =>
      simp only [List.map_cons, weight, membersText, Member.text, List.length_append, List.length_cons] at ih ⊢
      omega

theorem array_sizes {v : Bytes} {vs : List Bytes} (h : IsArray v vs) : sizes vs < v.length := by
  rcases h with ⟨w, _, rfl, rfl⟩ | ⟨es, _, _, _, rfl, rfl⟩
  · simp [sizes]
  · have := elems_sizes es; simp; omega

theorem object_weight {v : Bytes} {kvs : List (Bytes × Bytes)} (h : IsObject v kvs) :
    weight (kvs.map fun m => .member m.1 m.2) < v.length := by
  rcases h with ⟨w, _, rfl, rfl⟩ | ⟨ms, _, _, _, rfl, rfl⟩
  · simp [weight]
  · have := members_weight ms; simp only [List.length_cons, List.length_append, List.length_nil]; omega

/-- The entries hold values. -/
def EntriesOk (es : List Seen) : Prop := ∀ kl v, .member kl v ∈ es → StrLit kl ∧ IsValue v

theorem object_ok {v : Bytes} {kvs : List (Bytes × Bytes)} (h : IsObject v kvs) :
    EntriesOk (kvs.map fun m => .member m.1 m.2) := by
  intro kl v hm
  obtain ⟨m, h1, h2⟩ := List.mem_map.1 hm
  cases h2
  exact IsObject.mem_value h m h1

theorem sizes_cons (v : Bytes) (vs : List Bytes) : sizes (v :: vs) = v.length + 1 + sizes vs := by simp [sizes]

theorem sizes_append (vs ws : List Bytes) : sizes (vs ++ ws) = sizes vs + sizes ws := by simp [sizes]

theorem met_total (n : Nat) : ∀ vs : List Bytes, sizes vs ≤ n → (∀ v ∈ vs, IsValue v) →
    ∃ es, Met vs es ∧ weight es ≤ sizes vs ∧ (vs ≠ [] → weight es < sizes vs) ∧ EntriesOk es := by
  induction n with
  | zero =>
    intro vs hn _
    cases vs with
    | nil => exact ⟨[], .nil, by simp [weight], by simp, by simp [EntriesOk]⟩
    | cons v vs => rw [sizes_cons] at hn; omega
  | succ n ih =>
    intro vs hn hv
    cases vs with
    | nil => exact ⟨[], .nil, by simp [weight], by simp, by simp [EntriesOk]⟩
    | cons v vs =>
      rw [sizes_cons] at hn ⊢
      have hvs : ∀ x ∈ vs, IsValue x := fun x hx => hv x (List.mem_cons_of_mem _ hx)
      by_cases hc : IsCont v
      · rcases isCont_cases (hv v (by simp)) hc with ⟨kvs, ho⟩ | ⟨ws, ha⟩
        · have hw := object_weight ho
          refine ⟨_, .obj ho, ?_, fun _ => ?_, ?_⟩
          · rw [weight_append]; simp only [weight]; omega
          · rw [weight_append]; simp only [weight]; omega
          · intro kl x hx
            rcases List.mem_append.1 hx with h | h
            · exact object_ok ho kl x h
            · simp at h
        · have hw := array_sizes ha
          obtain ⟨es, h1, h2, _, h4⟩ := ih (ws ++ vs) (by rw [sizes_append]; omega) (by
            intro x hx
            rcases List.mem_append.1 hx with h | h
            · exact (IsArray.mem_value ha x h).1
            · exact hvs x h)
          rw [sizes_append] at h2
          exact ⟨es, .arr ha h1, by omega, fun _ => by omega, h4⟩
      · unfold IsCont at hc
        rw [not_or] at hc
        by_cases hs : kindOf v = .string
        · exact ⟨_, .str hs, by simp [weight], fun _ => by simp [weight]; omega, by simp [EntriesOk]⟩
        · obtain ⟨es, h1, h2, _, h4⟩ := ih vs (by omega) hvs
          exact ⟨es, .scalar hs hc.1 hc.2 h1, by omega, fun _ => by omega, h4⟩

theorem met_one {v : Bytes} (hv : IsValue v) : ∃ es, Met [v] es ∧ weight es < v.length + 1 ∧ EntriesOk es := by
  obtain ⟨es, h1, _, h3, h4⟩ := met_total _ [v] (Nat.le_refl _) (by simpa using hv)
  refine ⟨es, h1, ?_, h4⟩
  have := h3 (by simp)
  rw [sizes_cons] at this
  simpa [sizes] using this

open Classical in
theorem walk_total {Hit : Bytes → Bytes → Prop} (k : Bytes) {ks : List Bytes}
    (ih : ks ≠ [] → ∀ v, IsValue v → ∃ o, Find Hit v ks o) (n : Nat) : ∀ es, weight es ≤ n → EntriesOk es →
    ∃ o, Walk Hit k ks es o := by
  induction n with
  | zero =>
    intro es hn _
    match es with
    | [] => exact ⟨_, .nil⟩
    | .stop :: es => exact ⟨_, .stop⟩
    | .member kl v :: es => simp [weight] at hn
  | succ n ihn =>
    intro es hn hok
    match es with
    | [] => exact ⟨_, .nil⟩
    | .stop :: es => exact ⟨_, .stop⟩
    | .member kl v :: es =>
      have hv := (hok kl v (by simp)).2
      have hes : EntriesOk es := fun a b h => hok a b (List.mem_cons_of_mem _ h)
      simp only [weight] at hn
      by_cases hit : Hit k kl
      · by_cases hks : ks = []
        · subst hks; exact ⟨_, .last hit⟩
        · by_cases hc : IsCont v
          · obtain ⟨o, ho⟩ := ih hks v hv
            by_cases hm : o = .miss
            · subst hm
              obtain ⟨es', h1, h2, h3⟩ := met_one hv
              obtain ⟨o, h4⟩ := ihn (es' ++ es) (by rw [weight_append]; omega) (by
                intro a b h
                rcases List.mem_append.1 h with h | h
                · exact h3 a b h
                · exact hes a b h)
              exact ⟨o, .again hit hc ho h1 h4⟩
            · exact ⟨o, .into hit hc ho hm⟩
          · unfold IsCont at hc
            rw [not_or] at hc
            exact ⟨_, .scalar hit hks hc.1 hc.2⟩
      · obtain ⟨o, h⟩ := ihn es (by omega) hes
        exact ⟨o, .skip hit h⟩

open Classical in
theorem find_total (Hit : Bytes → Bytes → Prop) {ks : List Bytes} (hne : ks ≠ []) {v : Bytes} (hv : IsValue v) :
    ∃ o, Find Hit v ks o := by
  induction ks generalizing v with
  | nil => exact absurd rfl hne
  | cons k ks ih =>
    by_cases hc : IsCont v
    · rcases isCont_cases hv hc with ⟨kvs, ho⟩ | ⟨vs, ha⟩
      · obtain ⟨o, h⟩ := walk_total (Hit := Hit) k (fun h v hv => ih h hv) _ _ (Nat.le_refl _) (object_ok ho)
        exact ⟨o, .obj ho h⟩
      · by_cases hx : ∃ n e, IndexText k n ∧ n < 2 ^ 63 ∧ vs[n]? = some e
        · obtain ⟨n, e, h1, h2, h3⟩ := hx
          by_cases hks : ks = []
          · subst hks; exact ⟨_, .last ha h1 h2 h3⟩
          · obtain ⟨o, ho⟩ := ih hks (IsArray.mem_value ha e (List.mem_of_getElem? h3)).1
            by_cases hf : ∃ r, o = .found r
            · obtain ⟨r, rfl⟩ := hf
              exact ⟨_, .more ha h1 h2 h3 ho⟩
            · exact ⟨_, .none ha h1 h2 h3 ho fun r h => hf ⟨r, h⟩⟩
        · refine ⟨_, .beyond ha fun n h1 h2 => ?_⟩
          cases h3 : vs[n]? with
          | none => rfl
          | some e => exact absurd ⟨n, e, h1, h2, h3⟩ hx
    · unfold IsCont at hc
      rw [not_or] at hc
      exact ⟨_, .scalar hc.1 hc.2⟩

/-! ### Documents without nested keys -/

/-- No entry has a key that satisfies `P`, and none inside. -/
theorem walk_none {Hit : Bytes → Bytes → Prop} {k : Bytes} {ks : List Bytes} {es : List Seen} {o : Outcome}
    (h : Walk Hit k ks es o) (hn : ∀ kl v, .member kl v ∈ es → ¬ Hit k kl) : o = .miss := by
  induction es with
  | nil => cases h; rfl
  | cons x es ih =>
    cases h with
    | stop => rfl
    | skip _ hw => exact ih hw fun kl v h => hn kl v (List.mem_cons_of_mem _ h)
    | last hit => exact absurd hit (hn _ _ List.mem_cons_self)
    | scalar hit => exact absurd hit (hn _ _ List.mem_cons_self)
    | into hit => exact absurd hit (hn _ _ List.mem_cons_self)
    | again hit => exact absurd hit (hn _ _ List.mem_cons_self)

theorem met_inside {vs : List Bytes} {es : List Seen} (h : Met vs es) :
    ∀ kl x, .member kl x ∈ es → ∃ v ∈ vs, ∃ t kvs, Inside v t ∧ IsObject t kvs ∧ (kl, x) ∈ kvs := by
  induction h with
  | nil => simp
  | str => simp
  | scalar _ _ _ _ ih =>
    intro kl x hx
    obtain ⟨v, h1, h2⟩ := ih kl x hx
    exact ⟨v, List.mem_cons_of_mem _ h1, h2⟩
  | @obj v vs kvs ho =>
    intro kl x hx
    simp only [List.mem_append, List.mem_map, List.mem_singleton, reduceCtorEq, or_false] at hx
    obtain ⟨m, h1, h2⟩ := hx
    cases h2
    exact ⟨v, by simp, v, kvs, .here, ho, h1⟩
  | @arr v vs ws es ha _ ih =>
    intro kl x hx
    obtain ⟨u, h1, t, kvs, h2, h3⟩ := ih kl x hx
    rcases List.mem_append.1 h1 with h | h
    · exact ⟨v, by simp, t, kvs, .elem ha h h2, h3⟩
    · exact ⟨u, List.mem_cons_of_mem _ h, t, kvs, h2, h3⟩

theorem Spec.Unnested.member {P : Bytes → Prop} {v : Bytes} (h : Unnested P v) {kvs : List (Bytes × Bytes)} (ho : IsObject v kvs)
    {m : Bytes × Bytes} (hm : m ∈ kvs) : Unnested P m.2 :=
  fun t b kl x a h1 => h t b kl x a (.member ho hm h1)

theorem Spec.Unnested.elem {P : Bytes → Prop} {v : Bytes} (h : Unnested P v) {vs : List Bytes} (ha : IsArray v vs)
    {e : Bytes} (hm : e ∈ vs) : Unnested P e :=
  fun t b kl x a h1 => h t b kl x a (.elem ha hm h1)

/-- In the absence of nested keys, what is found is what the components lead to. -/
theorem unnested_walk {Hit : Bytes → Bytes → Prop} {k r : Bytes} {ks : List Bytes} {before kvs : List (Bytes × Bytes)} {v : Bytes}
    (hw : Walk Hit k ks (kvs.map fun m => .member m.1 m.2) (.found r)) (ho : IsObject v (before ++ kvs))
    (hb : ∀ m ∈ before, ¬ Hit k m.1) (hu : Unnested (Hit k) v) :
    ∃ before kl x after, IsObject v (before ++ (kl, x) :: after) ∧ (∀ m ∈ before, ¬ Hit k m.1) ∧ Hit k kl ∧
      ((ks = [] ∧ x = r) ∨ Find Hit x ks (.found r)) := by
  induction kvs generalizing before with
  | nil => cases hw
  | cons m kvs ih =>
    rw [List.map_cons] at hw
    cases hw with
    | skip hn hw =>
      refine ih hw (before := before ++ [m]) (by simpa using ho) ?_
      intro x hx
      rcases List.mem_append.1 hx with h | h
      · exact hb x h
      · simp at h; subst h; exact hn
    | last hit => exact ⟨before, m.1, m.2, kvs, ho, hb, hit, .inl ⟨rfl, rfl⟩⟩
    | into hit hc hf => exact ⟨before, m.1, m.2, kvs, ho, hb, hit, .inr hf⟩
    | again hit hc hf hm hw =>
      obtain ⟨h1, h2⟩ := hu v before m.1 m.2 kvs .here ho hit
      exfalso
      have := walk_none hw (by
        intro kl x hx
        rcases List.mem_append.1 hx with h | h
        · obtain ⟨u, h3, t, kvs', h4, h5, h6⟩ := met_inside hm kl x h
          simp at h3
          subst h3
          exact fun hh => h2 ⟨t, kvs', (kl, x), h4, h5, h6, hh⟩
        · obtain ⟨y, h3, h4⟩ := List.mem_map.1 h
          cases h4
          exact h1 y h3)
      cases this

theorem unnested_find {Hit : Bytes → Bytes → Prop} {D : Bytes → Bytes → Prop} {ks : List Bytes} {v r : Bytes}
    (h : Find Hit v ks (.found r)) (hD : ∀ k ∈ ks, ∀ kl, StrLit kl → (Hit k kl ↔ D kl k) ∧ ∃ s, D kl s)
    (hu : ∀ k ∈ ks, Unnested (Hit k) v) : Resolves D v ks r := by
  induction ks generalizing v with
  | nil => exact absurd rfl (find_ne_nil h)
  | cons k ks ih =>
    cases h with
    | obj ho hw =>
      obtain ⟨before, kl, x, after, h1, h2, h3, h4⟩ := unnested_walk (before := []) hw ho (by simp) (hu k (by simp))
      have hkl := IsObject.mem_value h1
      refine .key h1 (fun m hm => ?_) ((hD k (by simp) kl (hkl (kl, x) (by simp)).1).1.1 h3) ?_
      · obtain ⟨e1, s, e2⟩ := hD k (by simp) m.1 (hkl m (by simp [hm])).1
        exact ⟨s, e2, fun h => h2 m hm (e1.2 (h ▸ e2))⟩
      · rcases h4 with ⟨rfl, rfl⟩ | h4
        · exact .here
        · exact ih h4 (fun k hk => hD k (List.mem_cons_of_mem _ hk)) fun k hk =>
            (hu k (List.mem_cons_of_mem _ hk)).member h1 (m := (kl, x)) (by simp)
    | last ha hi hn he => exact .index ha hi hn he .here
    | more ha hi hn he hf =>
      exact .index ha hi hn he (ih hf (fun k hk => hD k (List.mem_cons_of_mem _ hk)) fun k hk =>
        (hu k (List.mem_cons_of_mem _ hk)).elem ha (List.mem_of_getElem? he))

/-- The outcome for a document. -/
theorem find_get {Hit : Bytes → Bytes → Prop} {v doc : Bytes} {ks : List Bytes} {o : Outcome} (h : Find Hit v ks o) (hv : IsValue v)
    (hd : Padded v doc) (ho : OrdComps ks) (hh : HitOk Hit ks) : Shows (get doc (dotPath ks)) o :=
  shows_congr (get_padded ho (find_ne_nil h) hv hd (padded_self v)) (find_sees h hv ho hh).2

theorem keyIs_fun {kl s s' : Bytes} (h : KeyIs kl s) (h' : KeyIs kl s') : s = s' := by
  obtain ⟨v, h1, h2⟩ := h
  obtain ⟨v', h3, h4⟩ := h'
  rw [h1] at h3
  cases h3
  rw [h2] at h4
  cases h4
  rfl

theorem plainKey_escapedAs {k : Bytes} (h : PlainKey k) : EscapedAs k k := by
  replace h := h.1
  induction k with
  | nil => exact .nil
  | cons c k ih => exact .plain (h c (by simp)) (ih (fun x hx => h x (List.mem_cons_of_mem _ hx)))

theorem plainKey_noQuestion {k : Bytes} (h : PlainKey k) : c! '?' ∉ k := fun hq => h.1 _ hq (by decide)

theorem hitOk_code {ks : List Bytes} : HitOk (fun k kl => ∃ s, KeyIs kl s ∧ MatchesE CodeEsc k s) ks := by
  intro k _ kl s hs
  refine ⟨fun ⟨s', h1, h2⟩ => ?_, fun h => ⟨s, hs, h⟩⟩
  rw [keyIs_fun hs h1]; exact h2

theorem hitOk_plain {ks : List Bytes} (hp : ∀ k ∈ ks, PlainKey k) : HitOk (fun k kl => KeyIs kl k) ks := by
  intro k hk kl s hs
  have he := plainKey_escapedAs (hp k hk)
  rw [codeEsc_iff (EscapedAs.noQuestion he (plainKey_noQuestion (hp k hk)))]
  refine Iff.trans ?_ (EscapedAs.matches he s).symm
  exact ⟨fun h => keyIs_fun hs h, fun h => h ▸ hs⟩

theorem shows_same {x y : Res Value} {o o' : Outcome} (hx : Shows x o) (hy : Shows y o')
    (h : o = o' ∨ (∀ r, o ≠ .found r) ∧ ∀ r, o' ≠ .found r) : SameRes x y := by
  have none : ∀ {x y : Res Value}, Shows x .lost → Shows y .lost → SameRes x y := by
    intro x y hx hy
    obtain ⟨u, rfl, h1⟩ := hx
    obtain ⟨w, rfl, h2⟩ := hy
    exact .ok (h1.trans h2.symm)
  rcases h with rfl | ⟨h1, h2⟩
  · cases o with
    | found r =>
      obtain ⟨u, rfl, h1⟩ := hx
      obtain ⟨w, rfl, h2⟩ := hy
      exact .ok (sameAsText_same h1 h2)
    | lost => exact none hx hy
    | miss => exact none hx hy
  · exact none (shows_lost hx h1) (shows_lost hy h2)

/-- The first member with the key decides, in the absence of nested keys. -/
theorem unnested_first {Hit : Bytes → Bytes → Prop} {k : Bytes} {ks : List Bytes} {before kvs : List (Bytes × Bytes)} {v : Bytes}
    {o : Outcome} (hw : Walk Hit k ks (kvs.map fun m => .member m.1 m.2) o) (ho : IsObject v (before ++ kvs))
    (hu : Unnested (Hit k) v) (hks : ks ≠ []) :
    ((∀ m ∈ kvs, ¬ Hit k m.1) ∧ o = .miss) ∨
    ∃ b kl x a o', kvs = b ++ (kl, x) :: a ∧ (∀ m ∈ b, ¬ Hit k m.1) ∧ Hit k kl ∧ Find Hit x ks o' ∧
      (o = o' ∨ (∀ r, o ≠ .found r) ∧ ∀ r, o' ≠ .found r) := by
  induction kvs generalizing before with
  | nil => cases hw; exact .inl ⟨by simp, rfl⟩
  | cons m kvs ih =>
    rw [List.map_cons] at hw
    cases hw with
    | skip hn hw =>
      rcases ih hw (before := before ++ [m]) (by simpa using ho) with ⟨h1, h2⟩ | ⟨b, kl, x, a, o', h1, h2, h3⟩
      · exact .inl ⟨by simpa using ⟨hn, fun a b h => h1 (a, b) h⟩, h2⟩
      · exact .inr ⟨m :: b, kl, x, a, o', by simp [h1], by simpa using ⟨hn, fun a b h => h2 (a, b) h⟩, h3⟩
    | last hit => exact absurd rfl hks
    | scalar hit _ h1 h2 =>
      obtain ⟨k', ks', rfl⟩ : ∃ k' ks', ks = k' :: ks' := by
        cases ks with
        | nil => exact absurd rfl hks
        | cons a b => exact ⟨a, b, rfl⟩
      exact .inr ⟨[], m.1, m.2, kvs, .miss, rfl, by simp, hit, .scalar h1 h2, .inr ⟨by simp, by simp⟩⟩
    | into hit hc hf => exact .inr ⟨[], m.1, m.2, kvs, _, rfl, by simp, hit, hf, .inl rfl⟩
    | again hit hc hf hm hw =>
      obtain ⟨h1, h2⟩ := hu v before m.1 m.2 kvs .here ho hit
      have := walk_none hw (by
        intro kl x hx
        rcases List.mem_append.1 hx with h | h
        · obtain ⟨u, h3, t, kvs', h4, h5, h6⟩ := met_inside hm kl x h
          simp at h3
          subst h3
          exact fun hh => h2 ⟨t, kvs', (kl, x), h4, h5, h6, hh⟩
        · obtain ⟨y, h3, h4⟩ := List.mem_map.1 h
          cases h4
          exact h1 y h3)
      exact .inr ⟨[], m.1, m.2, kvs, _, rfl, by simp, hit, hf, .inl this⟩

theorem walk_first {Hit : Bytes → Bytes → Prop} {k kl x : Bytes} {b a : List (Bytes × Bytes)} (hb : ∀ m ∈ b, ¬ Hit k m.1)
    (h : Hit k kl) : Walk Hit k [] ((b ++ (kl, x) :: a).map fun m => .member m.1 m.2) (.found x) := by
  induction b with
  | nil => exact .last h
  | cons m b ih => exact .skip (hb m (by simp)) (ih fun y hy => hb y (List.mem_cons_of_mem _ hy))

theorem walk_nowhere {Hit : Bytes → Bytes → Prop} {k : Bytes} {ks : List Bytes} {kvs : List (Bytes × Bytes)} (hb : ∀ m ∈ kvs, ¬ Hit k m.1) :
    Walk Hit k ks (kvs.map fun m => .member m.1 m.2) .miss := by
  induction kvs with
  | nil => exact .nil
  | cons m b ih => exact .skip (hb m (by simp)) (ih fun y hy => hb y (List.mem_cons_of_mem _ hy))

/-- A dot is a second lookup, in the absence of nested keys. -/
theorem unnested_dot {Hit : Bytes → Bytes → Prop} {k v doc : Bytes} {ks : List Bytes} (hv : IsValue v) (hd : Padded v doc)
    (ho : OrdComps (k :: ks)) (hks : ks ≠ []) (hh : HitOk Hit (k :: ks)) (hu : Unnested (Hit k) v) :
    SameRes (get doc (dotPath (k :: ks))) (get doc k >>= fun w => w.get (dotPath ks)) := by
  have ho1 : OrdComps [k] := fun x hx => by simp at hx; subst hx; exact ho x (by simp)
  have hh1 : HitOk Hit [k] := fun x hx => by simp at hx; subst hx; exact hh x (by simp)
  obtain ⟨o, hf⟩ := find_total Hit (ks := k :: ks) (by simp) hv
  have hs := find_get hf hv hd ho hh
  have hn : ∀ {w : Value}, Handed w → ∀ {t}, w.json = t → ∀ {o'}, Shows (get t (dotPath ks)) o' → Shows (w.get (dotPath ks)) o' := by
    intro w hw t ht o' h
    subst ht
    exact shows_congr (getIn_same hw.oneText _) h
  have hempty : Shows (get [] (dotPath ks)) .miss := by
    obtain ⟨w, h1, h2⟩ := get_noCont_ord (s := []) ho.tail hks (by intro c hc; simp at hc)
    exact ⟨w, h1, h2⟩
  have found : ∀ x, IsValue x → Find Hit v [k] (.found x) → ∀ o', Find Hit x ks o' →
      Shows (get doc k >>= fun w => w.get (dotPath ks)) o' := by
    intro x hx h o' ho'
    obtain ⟨w, h1, h2⟩ := find_get h hv hd ho1 hh1
    replace h1 : get doc k = .ok w := h1
    rw [h1, ok_bind]
    exact hn (.get h1) h2.1 (find_sees ho' hx ho.tail hh.tail).2
  have missing : ∀ o, (∀ r, o ≠ .found r) → Find Hit v [k] o → Shows (get doc k >>= fun w => w.get (dotPath ks)) .miss := by
    intro o hne h
    obtain ⟨w, h1, h2⟩ := shows_lost (find_get h hv hd ho1 hh1) hne
    replace h1 : get doc k = .ok w := h1
    rw [h1, ok_bind]
    exact hn (.get h1) h2.json hempty
  cases hf with
  | scalar h1 h2 => exact shows_same hs (missing .miss (by simp) (.scalar h1 h2)) (.inl rfl)
  | obj hobj hw =>
    rcases unnested_first (before := []) hw hobj hu hks with ⟨h1, rfl⟩ | ⟨b, kl, x, a, o', rfl, h2, h3, h4, h5⟩
    · exact shows_same hs (missing .miss (by simp) (.obj hobj (walk_nowhere h1))) (.inl rfl)
    · have hx := (IsObject.mem_value hobj (kl, x) (by simp)).2
      exact shows_same hs (found x hx (.obj hobj (walk_first h2 h3)) o' h4) h5
  | beyond ha h => exact shows_same hs (missing .miss (by simp) (.beyond ha h)) (.inl rfl)
  | last => exact absurd rfl hks
  | more ha hi hn he hf =>
    exact shows_same hs (found _ (IsArray.mem_value ha _ (List.mem_of_getElem? he)).1 (.last ha hi hn he) _ hf) (.inl rfl)
  | none ha hi hn he hf hne =>
    exact shows_same hs (found _ (IsArray.mem_value ha _ (List.mem_of_getElem? he)).1 (.last ha hi hn he) _ hf)
      (.inr ⟨by simp, hne⟩)

/-! ### Deciding whether keys are nested -/

/-- The members of an object text, as `each` sees them. -/
def membersOf (t : Bytes) : List (Bytes × Bytes) := (pairUp (Gjson.toks 1 t.tail)).map fun x => (x.1.json, x.2.json)

/-- The elements of an array text, as `each` sees them. -/
def elementsOf (t : Bytes) : List Bytes := (Gjson.toks 1 t.tail).map Value.json

theorem aligned_map {α β : Type} {R : α → β → Prop} {f : α → β} (hf : ∀ a b, R a b → f a = b) {as : List α} {bs : List β}
    (h : Aligned R as bs) : bs = as.map f := by
  induction h with
  | nil => rfl
  | cons h _ ih => simp [hf _ _ h, ← ih]

theorem isObject_fun {t : Bytes} {kvs : List (Bytes × Bytes)} (h : IsObject t kvs) : kvs = membersOf t := by
  obtain ⟨q, h1, h2⟩ := IsObject.vals (r := []) h 0
  rw [List.append_nil] at h1
  subst h1
  exact aligned_map (f := fun x => (x.1.json, x.2.json)) (fun a b hab => Prod.ext hab.1.1 hab.2.1) h2

theorem isArray_fun {t : Bytes} {vs : List Bytes} (h : IsArray t vs) : vs = elementsOf t := by
  obtain ⟨q, h1, h2⟩ := IsArray.vals (r := []) h 0
  rw [List.append_nil] at h1
  subst h1
  exact aligned_map (fun a b hab => hab.1) h2

/-- The parts of a value. -/
def parts : Nat → Bytes → List Bytes
  | 0, v => [v]
  | n + 1, v => v :: (if kindOf v = .object then (membersOf v).flatMap fun m => parts n m.2
      else if kindOf v = .array then (elementsOf v).flatMap (parts n) else [])

theorem weight_mem {kl x : Bytes} {es : List Seen} (h : .member kl x ∈ es) : x.length < weight es := by
  induction es with
  | nil => simp at h
  | cons e es ih =>
    simp only [List.mem_cons] at h
    rcases h with rfl | h
    · simp [weight]; omega
    · have := ih h
      cases e <;> simp only [weight] <;> omega

theorem sizes_mem {x : Bytes} {vs : List Bytes} (h : x ∈ vs) : x.length < sizes vs := by
  induction vs with
  | nil => simp at h
  | cons e es ih =>
    rw [sizes_cons]
    simp only [List.mem_cons] at h
    rcases h with rfl | h
    · omega
    · have := ih h; omega

theorem inside_parts {v t : Bytes} (h : Inside v t) : ∀ {n : Nat}, v.length ≤ n → t ∈ parts n v := by
  induction h with
  | here => intro n _; cases n <;> simp [parts]
  | @member v t kvs m ho hm _ ih =>
    intro n hn
    have hk := IsObject.kindOf ho
    have hl := object_weight ho
    have hx := weight_mem (kl := m.1) (x := m.2) (es := kvs.map fun m => .member m.1 m.2) (List.mem_map.2 ⟨m, hm, rfl⟩)
    cases n with
    | zero => omega
    | succ n =>
      rw [parts, if_pos hk, ← isObject_fun ho]
      exact List.mem_cons_of_mem _ (List.mem_flatMap.2 ⟨m, hm, ih (by omega)⟩)
  | @elem v t e vs ha hm _ ih =>
    intro n hn
    have hk := IsArray.kindOf ha
    have hl := array_sizes ha
    have hx := sizes_mem hm
    cases n with
    | zero => omega
    | succ n =>
      rw [parts, if_neg (by rw [hk]; decide), if_pos hk, ← isArray_fun ha]
      exact List.mem_cons_of_mem _ (List.mem_flatMap.2 ⟨e, hm, ih (by omega)⟩)

/-- Are there keys satisfying `P` in the value? -/
def hasKeyB (P : Bytes → Bool) (v : Bytes) : Bool := (parts v.length v).any fun t => (membersOf t).any fun m => P m.1

theorem hasKeyB_of {P : Bytes → Bool} {v : Bytes} (h : HasKey (fun kl => P kl = true) v) : hasKeyB P v = true := by
  obtain ⟨t, kvs, m, h1, h2, h3, h4⟩ := h
  unfold hasKeyB
  rw [List.any_eq_true]
  refine ⟨t, inside_parts h1 (Nat.le_refl _), ?_⟩
  rw [← isObject_fun h2, List.any_eq_true]
  exact ⟨m, h3, h4⟩

/-- Only one member with such a key, and none inside it. -/
def unnestedMembers (P : Bytes → Bool) : List (Bytes × Bytes) → Bool
  | [] => true
  | m :: ms => (!P m.1 || (ms.all (fun x => !P x.1) && !hasKeyB P m.2)) && unnestedMembers P ms

theorem unnestedMembers_split {P : Bytes → Bool} {b a : List (Bytes × Bytes)} {kl x : Bytes}
    (h : unnestedMembers P (b ++ (kl, x) :: a) = true) (hk : P kl = true) : (∀ m ∈ a, P m.1 = false) ∧ hasKeyB P x = false := by
  induction b with
  | nil =>
    simp only [List.nil_append, unnestedMembers, hk, Bool.not_true, Bool.false_or, Bool.and_eq_true, Bool.not_eq_true', List.all_eq_true] at h
    exact h.1
  | cons m b ih =>
    simp only [List.cons_append, unnestedMembers, Bool.and_eq_true] at h
    exact ih h.2

theorem unnested_of {P : Bytes → Bool} {v : Bytes} (h : ((parts v.length v).all fun t => unnestedMembers P (membersOf t)) = true) :
    Unnested (fun kl => P kl = true) v := by
  intro t b kl x a h1 h2 h3
  rw [List.all_eq_true] at h
  have := h t (inside_parts h1 (Nat.le_refl _))
  rw [← isObject_fun h2] at this
  obtain ⟨h4, h5⟩ := unnestedMembers_split this h3
  refine ⟨fun m hm => by simp [h4 m hm], fun hk => ?_⟩
  rw [hasKeyB_of hk] at h5
  cases h5

/-- Does the library read the key literal `kl` as `k`? -/
def keyIsB (k kl : Bytes) : Bool :=
  match parse kl with
  | .ok v => match v.str with
    | .ok s => s = k
    | .error _ => false
  | .error _ => false

theorem keyIsB_iff {k kl : Bytes} : keyIsB k kl = true ↔ KeyIs kl k := by
  unfold keyIsB KeyIs
  cases parse kl with
  | error e => simp
  | ok v =>
    simp only [Except.ok.injEq, exists_eq_left']
    cases v.str with
    | error e => simp
    | ok s => simp

end Gjson
