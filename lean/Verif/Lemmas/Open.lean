import Verif.Lemmas.Inside
import Verif.SpecOpen
/-
Searches in texts that may stop before their end.
-/
namespace Gjson
open Spec

theorem numTake_ends {t r : Bytes} (h : ∀ c ∈ t, NumCh c) (hr : ∀ c ∈ r.head?, ¬ NumCh c) :
    numTake (t ++ r) = t ∧ numDrop (t ++ r) = r := by
  induction t with
  | nil =>
    cases r with
    | nil => exact ⟨rfl, rfl⟩
    | cons c r => simp [numTake, numDrop, hr c (by simp)]
  | cons c t ih =>
    have := ih (fun x hx => h x (by simp [hx]))
    have hc := h c (by simp)
    unfold numTake numDrop at this ⊢
    simp [hc, this]

theorem Follow.ends {v q : Bytes} (h : Follow q) : EndsHere v q := by
  intro _ c hc
  have := h c hc
  unfold IsWs at this
  unfold IsDigit
  simp only [List.mem_cons, List.not_mem_nil, or_false, not_or]
  grind (splits := 30)

theorem leafTok_ends {v q : Bytes} (h : IsValue v) (hq : EndsHere v q) : leafTok (v ++ q) = (some (v, infoOf v), q) := by
  have hcont : ∀ c r, v = c :: r → (c = c! '{' ∨ c = c! '[') → leafTok (v ++ q) = (some (v, contBit c), q) := by
    intro c r hv hc
    obtain ⟨b, e, rfl, he, hb⟩ := Ws.pass_elems h hv hc
    subst hv
    have e1 : c :: (b ++ [e]) ++ q = c :: (b ++ e :: q) := by simp
    rw [e1]
    simp only [leafTok]
    rw [if_neg (by grind), if_pos hc, sq_close he hb]
  cases h with
  | null => simp [leafTok, infoOf, NumStart]
  | true => simp [leafTok, infoOf, NumStart]
  | false => simp [leafTok, infoOf, NumStart]
  | str h => exact leafTok_str h
  | num h =>
    have hk : kindOf v = .number := by
      obtain ⟨c, r, rfl, hc⟩ := NumLit.cons h
      unfold IsDigit at hc
      unfold kindOf
      simp only
      rw [if_neg (by grind), if_neg (by grind), if_neg (by grind), if_neg (by grind), if_neg (by grind), if_neg (by grind)]
    have hr : ∀ c ∈ q.head?, ¬ NumCh c := by
      intro c hc
      have := hq hk c hc
      unfold IsDigit at this
      simp only [List.mem_cons, List.not_mem_nil, or_false, not_or] at this
      unfold NumCh
      grind
    obtain ⟨c, t, rfl, hc⟩ := NumLit.cons h
    have hch := numLit_numCh h
    have h2 := numTake_ends (t := t) (r := q) (fun x hx => hch x (by simp [hx])) hr
    have hs : NumStart c := by unfold IsDigit at hc; unfold NumStart; grind
    have hs' := hs
    unfold NumStart at hs'
    simp only [List.cons_append, leafTok, infoOf]
    rw [if_neg (by grind), if_neg (by grind), if_pos hs, h2.1, h2.2]
    rw [if_neg (by grind), if_neg (by grind), if_neg (by grind), if_neg (by grind), if_neg (by grind),
      if_neg (by grind)]
  | arrEmpty hw => rw [hcont _ _ rfl (.inr rfl)]; rfl
  | arr _ hw hv' => rw [hcont _ _ rfl (.inr rfl)]; rfl
  | objEmpty hw => rw [hcont _ _ rfl (.inl rfl)]; rfl
  | obj _ hw hv' => rw [hcont _ _ rfl (.inl rfl)]; rfl

theorem toks_ends {i : Nat} {v q : Bytes} (h : IsValue v) (hq : EndsHere v q) :
    toks i (v ++ q) = leafVal (some i) v :: toks (i + v.length) q :=
  toks_tokens (IsValue.cons h) (leafTok_ends h hq)

/-- Elements that are followed by a comma. -/
theorem toks_past {es : List Elem} (hw : ∀ e ∈ es, e.Wf) (hv : ∀ e ∈ es, IsValue e.val) (s : Bytes) : ∀ i,
    ∃ vals j, vals.length = es.length ∧ toks i (es.flatMap (fun e => e.text ++ [c! ',']) ++ s) = vals ++ toks j s := by
  induction es with
  | nil => intro i; exact ⟨[], i, rfl, rfl⟩
  | cons e es ih =>
    intro i
    have e1 : (e :: es).flatMap (fun e => e.text ++ [c! ',']) ++ s =
        e.text ++ c! ',' :: (es.flatMap (fun e => e.text ++ [c! ',']) ++ s) := by simp
    rw [e1, toks_elem (hw e (by simp)) (hv e (by simp)) .comma, toks_skip (by decide)]
    obtain ⟨vals, j, h1, h2⟩ := ih (fun x hx => hw x (by simp [hx])) (fun x hx => hv x (by simp [hx])) (i + e.text.length + 1)
    exact ⟨leafVal (some (i + e.pre.length)) e.val :: vals, j, by simp [h1], by rw [h2]; rfl⟩

/-- The element after elements that are followed by a comma. -/
theorem toks_nth {es : List Elem} {w v q : Bytes} (hw : ∀ e ∈ es, e.Wf) (hv : ∀ e ∈ es, IsValue e.val) (h0 : Ws w) (h : IsValue v)
    (hq : EndsHere v q) (i : Nat) :
    ∃ j, (toks i (es.flatMap (fun e => e.text ++ [c! ',']) ++ (w ++ (v ++ q))))[es.length]? = some (leafVal (some j) v) := by
  obtain ⟨vals, j, h1, h2⟩ := toks_past hw hv (w ++ (v ++ q)) i
  refine ⟨j + w.length, ?_⟩
  rw [h2, toks_ws h0, toks_ends h hq, ← h1]
  simp

theorem gCont_nth {k w v q : Bytes} {ks : List Bytes} {es : List Elem} (ho : OrdComp k) (hw : ∀ e ∈ es, e.Wf)
    (hv : ∀ e ∈ es, IsValue e.val) (h0 : Ws w) (hi : IndexText k es.length) (hn : es.length < 2 ^ 63) (h : IsValue v)
    (hq : EndsHere v q) (L : Nat) :
    ∃ a, gCont get L (pNext (dotPath (k :: ks))) (c! '[' :: (es.flatMap (fun e => e.text ++ [c! ',']) ++ (w ++ (v ++ q)))) =
      .ok (a, pNext (dotPath (k :: ks))) ∧ SameAsText a v ∧ OneText a := by
  rw [gCont, if_neg (by simp), gArr]
  generalize hl : eachToks _ false _ = vals
  have : ∃ j, vals[es.length]? = some (leafVal (some j) v) := by
    rw [← hl]
    unfold eachToks
    rw [if_neg (by simp), List.drop_one, List.tail_cons]
    exact toks_nth hw hv h0 h hq _
  obtain ⟨j, hj⟩ := this
  refine ⟨leafVal (some j) v, ?_, leaf_sameAsText h _, mkVal_oneText _ _ _⟩
  obtain ⟨e, p, x1, x2⟩ := ord_next (ks := ks) [] ho
  have hd : vals.getD es.length Value.default = leafVal (some j) v := by
    rw [List.getD_eq_getElem?_getD, hj]; rfl
  by_cases hks : ks = []
  · rw [(x1 hks).1, array_element ho.2.1 _ _ _ _ hi hn, hd]
  · rw [(x2 hks).1, array_element ho.2.1 _ _ _ _ hi hn, hd]

/-- Members that are followed by a comma and not hit. -/
theorem gObjLoop_past (d : Bytes → Res (Value × Path)) (L : Nat) (p : Path) {ms : List Member} (hw : ∀ m ∈ ms, m.Wf)
    (hv : ∀ m ∈ ms, IsValue m.val) (hn : ∀ m ∈ ms, ∀ s, KeyIs m.key s → pKeyMatch s p = false) (s : Bytes) :
    gObjLoop d L p (ms.flatMap (fun m => m.text ++ [c! ',']) ++ s) = gObjLoop d L p s := by
  induction ms with
  | nil => rfl
  | cons m ms ih =>
    have e1 : (m :: ms).flatMap (fun m => m.text ++ [c! ',']) ++ s =
        m.text ++ c! ',' :: (ms.flatMap (fun m => m.text ++ [c! ',']) ++ s) := by simp
    obtain ⟨k, hk, _⟩ := keyIs_total (hw m (by simp)).2.1
    obtain ⟨i, h⟩ := gObjLoop_member d L p (r := c! ',' :: (ms.flatMap (fun m => m.text ++ [c! ',']) ++ s)) (hw m (by simp)) (hv m (by simp)) .comma hk
    rw [e1, h, hn m (by simp) k hk, if_neg (by simp), gObjLoop_skip _ _ _ _ (by decide) (by decide),
      ih (fun x hx => hw x (by simp [hx])) (fun x hx => hv x (by simp [hx])) (fun x hx => hn x (by simp [hx]))]

theorem reached_starts {Hit : Bytes → Bytes → Prop} {t r : Bytes} {ks : List Bytes} (h : Reached Hit t ks r) :
    ∃ c q, t = c :: q ∧ StartsValue c ∧ (ks ≠ [] → c = c! '{' ∨ c = c! '[') := by
  cases h with
  | here h _ =>
    obtain ⟨c, q, rfl, hs⟩ := IsValue.cons h
    exact ⟨c, _, rfl, hs, fun h => absurd rfl h⟩
  | key => exact ⟨_, _, rfl, by unfold StartsValue; simp, fun _ => .inl rfl⟩
  | last => exact ⟨_, _, rfl, by unfold StartsValue; simp, fun _ => .inr rfl⟩
  | index => exact ⟨_, _, rfl, by unfold StartsValue; simp, fun _ => .inr rfl⟩

theorem reached_sees {Hit : Bytes → Bytes → Prop} {t r : Bytes} {ks : List Bytes} (h : Reached Hit t ks r) (hne : ks ≠ [])
    (ho : OrdComps ks) (hh : HitOk Hit ks) (L : Nat) : Sees (gCont get L (pNext (dotPath ks)) t) (.found r) := by
  induction h with
  | here => exact absurd rfl hne
  | @last k w v q es h1 h2 h3 h4 h5 h6 h7 =>
    obtain ⟨a, e, h8, _⟩ := gCont_nth (ks := []) (ho k (by simp)) h1 h2 h3 h4 h5 h6 h7 L
    rw [e]
    exact sees_last (ho k (by simp)) h8 (isValue_ne_nil h6)
  | @index k w v q r ks es h1 h2 h3 h4 h5 h6 h7 hf =>
    obtain ⟨a, e, h8, h9⟩ := gCont_nth (ks := ks) (ho k (by simp)) h1 h2 h3 h4 h5 h6 h7 L
    rw [e]
    obtain ⟨u, p, a1, a2, a3⟩ := sees_step (ho k (by simp)) (find_ne_nil hf) h8 (isValue_ne_nil h6) h9
      (find_sees hf h6 ho.tail hh.tail).2
    exact ⟨u, p, a1, by simp [a2], a3⟩
  | @key k kl w1 w2 w3 t r ks ms h1 h2 h3 h4 h5 h6 h7 hit ht ih =>
    obtain ⟨sk, hk, _⟩ := keyIs_total h5
    have hm : pKeyMatch sk (pNext (dotPath (k :: ks))) = true := (hit_path ho hh hk).2 hit
    obtain ⟨c2, r2, et, hst, hcont⟩ := reached_starts ht
    obtain ⟨b, hb, hkl⟩ := h5
    rw [hkl, keyIs_lit hb] at hk
    have hq := qStr_body (q := w2 ++ c! ':' :: (w3 ++ t)) hb
    have hs : pSkipColon (w2 ++ c! ':' :: (w3 ++ t)) = c2 :: r2 := by rw [pSkipColon_mid h6 h7 ⟨c2, r2, et, hst⟩, et]
    have e1 : w1 ++ (kl ++ (w2 ++ c! ':' :: (w3 ++ t))) = w1 ++ c! '"' :: (b ++ c! '"' :: (w2 ++ c! ':' :: (w3 ++ t))) := by
      rw [hkl]; simp
    rw [gCont, if_pos (by rfl), gObj_cons, gObjLoop_past _ _ _ h1 h2 (fun m hm s hs => by
      rw [Bool.eq_false_iff, ne_eq, hit_path ho hh hs]; exact h3 m hm), e1, gObjLoop_ws _ _ _ h4,
      gObjLoop_key _ _ _ hq hs, keyText_lit hb, ← hk, if_pos hm]
    by_cases hks : ks = []
    · subst hks
      cases ht with
      | @here v q hv he =>
        rw [if_neg (fun h => (ord_dives ho).1.1 h.1 rfl), ← et, leafTok_ends hv he]
        simp only [tokVal, mkVal_exists]
        rw [if_pos (by simpa using isValue_ne_nil hv)]
        exact sees_last (ho k (by simp)) (leaf_sameAsText hv _) (isValue_ne_nil hv)
    · have hd := (ord_dives ho).1.2 hks
      rw [if_pos ⟨hd, hcont hks⟩]
      simp only
      rw [if_pos hd, (ord_dives ho).2 hks, ← et]
      obtain ⟨u, p, a1, a2, a3⟩ := ih hks ho.tail hh.tail
      rw [a1, ok_bind]
      simp only
      rw [if_pos (a2.2 (by simp))]
      exact ⟨u, p, rfl, a2, a3⟩

theorem reached_get {Hit : Bytes → Bytes → Prop} {t r w : Bytes} {ks : List Bytes} (h : Reached Hit t ks r) (hne : ks ≠ [])
    (ho : OrdComps ks) (hh : HitOk Hit ks) (hw : Ws w) : ∃ u, get (w ++ t) (dotPath ks) = .ok u ∧ SameAsText u r := by
  obtain ⟨k, ks', rfl⟩ := List.exists_cons_of_ne_nil hne
  obtain ⟨c, q, et, _, hc⟩ := reached_starts h
  have hcont : IsCont t := by rw [et, isCont_cons]; exact hc hne
  obtain ⟨u, p, h1, _, h3⟩ := reached_sees h hne ho hh (w ++ t).length
  have e := gStart_cont get (w ++ t).length (pNext (dotPath (k :: ks'))) (q := []) hcont
  rw [List.append_nil] at e
  rw [(get_dotOrd (ho k (by simp)) (w ++ t) []).1, gStart_ws _ _ _ hw, e, h1, ok_bind]
  exact h3

/-! ### Documents cut off -/

theorem commaList_split {α : Type} (text : α → Bytes) (all : List α → Bytes) (one : ∀ a, all [a] = text a)
    (more : ∀ a b l, all (a :: b :: l) = text a ++ c! ',' :: all (b :: l)) {z : UInt8} (hz : z = c! ']' ∨ z = c! '}') (m : α) (ms2 : List α) :
    ∀ ms1 : List α, ∃ q, Follow q ∧ q ≠ [] ∧ all (ms1 ++ m :: ms2) ++ [z] = ms1.flatMap (fun m => text m ++ [c! ',']) ++ (text m ++ q) := by
  intro ms1
  induction ms1 with
  | nil =>
    cases ms2 with
    | nil => exact ⟨[z], .cons (.inr (.inr hz)), by simp, by simp [one]⟩
    | cons b l => exact ⟨c! ',' :: (all (b :: l) ++ [z]), .comma, by simp, by simp [more]⟩
  | cons a ms1 ih =>
    obtain ⟨q, h1, h2, h3⟩ := ih
    refine ⟨q, h1, h2, ?_⟩
    have : all (a :: ms1 ++ m :: ms2) = text a ++ c! ',' :: all (ms1 ++ m :: ms2) := by
      cases ms1 with
      | nil => exact more _ _ _
      | cons b l => exact more _ _ _
    rw [this, List.append_assoc, List.cons_append, h3]
    simp

theorem Follow.append {q : Bytes} (h : Follow q) (hne : q ≠ []) (r : Bytes) : Follow (q ++ r) := by
  obtain ⟨c, q, rfl⟩ := List.exists_cons_of_ne_nil hne
  exact .cons (h c (by simp))

theorem leads_find {Hit : Bytes → Bytes → Prop} {v r : Bytes} {ks : List Bytes} (h : Leads Hit v ks r) (hne : ks ≠ []) :
    Find Hit v ks (.found r) := by
  induction h with
  | here => exact absurd rfl hne
  | @key t kl k x r ks before after hobj hb hit hl ih =>
    refine .obj hobj ?_
    rw [List.map_append, List.map_cons]
    have hw : ∀ es, Walk Hit k ks (.member kl x :: es) (.found r) := by
      intro es
      cases ks with
      | nil => cases hl; exact .last hit
      | cons k' ks =>
        refine .into hit ?_ (ih (by simp)) (by simp)
        cases hl with
        | key h => exact .inl (IsObject.kindOf h)
        | index h => exact .inr (IsArray.kindOf h)
    clear hobj ih
    induction before with
    | nil => exact hw _
    | cons m before ihb => exact .skip (hb m (by simp)) (ihb fun x hx => hb x (by simp [hx]))
  | @index t k x r ks vs n harr hi hn hx hl ih =>
    cases ks with
    | nil => cases hl; exact .last harr hi hn hx
    | cons k' ks => exact .more harr hi hn hx (ih (by simp))

theorem leads_inside {Hit : Bytes → Bytes → Prop} {v r : Bytes} {ks : List Bytes} (h : Leads Hit v ks r) : Inside v r := by
  induction h with
  | here => exact .here
  | @key t kl k x r ks before after hobj _ _ _ ih => exact .member (m := (kl, x)) hobj (by simp) ih
  | index harr _ _ hx _ ih => exact .elem harr (List.mem_of_getElem? hx) ih

/-- What `Leads` needs of a document is there before the value of the last key, or the
element of the first index, ends. -/
theorem leads_cut {Hit : Bytes → Bytes → Prop} {v r : Bytes} {ks : List Bytes} (h : Leads Hit v ks r) (hv : IsValue v) :
    ∃ a u b, v = a ++ (u ++ b) ∧ IsValue u ∧ Inside u r ∧ ((∀ k ∈ ks, ∀ n, ¬ IndexText k n) → u = r) ∧
      (ks ≠ [] → ∀ s, EndsHere u (b ++ s)) ∧ ∀ q, EndsHere u q → Reached Hit (a ++ (u ++ q)) ks r := by
  induction h with
  | @here v => exact ⟨[], v, [], by simp, hv, .here, fun _ => rfl, fun h => absurd rfl h, fun q hq => .here hv hq⟩
  | @key t kl k x r ks before after hobj hb hit hl ih =>
    rcases hobj with ⟨_, _, _, e⟩ | ⟨ms, _, hw, hval, rfl, e⟩
    · simp at e
    obtain ⟨ms1, ms', rfl, e1, e2⟩ := List.map_eq_append_iff.1 e.symm
    obtain ⟨m, ms2, rfl, e3, e4⟩ := List.map_eq_cons_iff.1 e2
    simp only [Prod.mk.injEq] at e3
    obtain ⟨rfl, rfl⟩ := e3
    have hm : m.Wf := hw m (by simp)
    obtain ⟨q0, hq0, hq1, hq2⟩ := commaList_split Member.text membersText (fun _ => rfl) (fun _ _ _ => rfl) (z := c! '}') (.inr rfl) m ms2 ms1
    obtain ⟨a, u, b, rfl', hu, hi, hn, he, hr⟩ := ih (hval m (by simp))
    refine ⟨c! '{' :: (ms1.flatMap (fun m => m.text ++ [c! ',']) ++ (m.pre ++ (m.key ++ (m.mid1 ++ c! ':' :: (m.mid2 ++ a))))), u,
      b ++ (m.post ++ q0), ?_, hu, hi, fun h => hn fun x hx => h x (by simp [hx]), fun _ s => ?_, fun q hq => ?_⟩
    · rw [hq2, Member.text, rfl']; simp
    · by_cases hks : ks = []
      · subst hks
        cases hl
        have : b = [] := by
          have h1 := hn (by simp)
          rw [h1] at rfl'
          have h2 := congrArg List.length rfl'
          simp at h2
          exact List.eq_nil_of_length_eq_zero (by omega)
        rw [this]
        rw [List.nil_append, List.append_assoc]
        exact (Follow.ws hm.2.2.2.2 (hq0.append hq1 s)).ends
      · have := he hks (m.post ++ (q0 ++ s))
        simpa using this
    · have := Reached.key (ms := ms1) (fun x hx => hw x (by simp [hx])) (fun x hx => hval x (by simp [hx]))
        (fun x hx => hb (x.key, x.val) (by rw [← e1]; exact List.mem_map_of_mem hx)) hm.1 hm.2.1 hm.2.2.1 hm.2.2.2.1 hit (hr q hq)
      simpa using this
  | @index t k x r ks vs n harr hi hn hx hl ih =>
    rcases harr with ⟨_, _, _, e⟩ | ⟨es, _, hw, hval, rfl, e⟩
    · subst e; simp at hx
    subst e
    rw [List.getElem?_map] at hx
    obtain ⟨m, hm0, rfl⟩ := Option.map_eq_some_iff.1 hx
    obtain ⟨hlt, hm1⟩ := List.getElem?_eq_some_iff.1 hm0
    have hsplit : es = es.take n ++ m :: es.drop (n + 1) := by
      rw [← hm1, List.getElem_cons_drop, List.take_append_drop]
    have hmem : m ∈ es := by rw [hsplit]; simp
    have hm : m.Wf := hw m hmem
    have hlen : (es.take n).length = n := by rw [List.length_take]; omega
    obtain ⟨q0, hq0, hq1, hq2⟩ := commaList_split Elem.text elemsText (fun _ => rfl) (fun _ _ _ => rfl) (z := c! ']') (.inl rfl) m (es.drop (n + 1)) (es.take n)
    rw [← hsplit] at hq2
    refine ⟨c! '[' :: ((es.take n).flatMap (fun m => m.text ++ [c! ',']) ++ m.pre), m.val, m.post ++ q0, ?_, hval m hmem, leads_inside hl,
      fun h => absurd hi (h k (by simp) n), fun _ s => ?_, fun q hq => ?_⟩
    · rw [hq2, Elem.text]; simp
    · rw [List.append_assoc]
      exact (Follow.ws hm.2 (hq0.append hq1 s)).ends
    · have t1 : ∀ x ∈ es.take n, x.Wf := fun x hx => hw x (List.mem_of_mem_take hx)
      have t2 : ∀ x ∈ es.take n, IsValue x.val := fun x hx => hval x (List.mem_of_mem_take hx)
      by_cases hks : ks = []
      · subst hks
        cases hl
        have := Reached.last (Hit := Hit) t1 t2 hm.1 (by rw [hlen]; exact hi) (by rw [hlen]; exact hn) (hval m hmem) hq
        simpa using this
      · have := Reached.index (Hit := Hit) t1 t2 hm.1 (by rw [hlen]; exact hi) (by rw [hlen]; exact hn) (hval m hmem) hq (leads_find hl hks)
        simpa using this

end Gjson
