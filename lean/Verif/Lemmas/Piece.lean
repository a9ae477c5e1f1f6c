import Verif.Lemmas.Pipe
import Verif.Lemmas.Miss
/-
Results of paths of ordinary components are pieces of the text.
-/
namespace Gjson
open Spec

theorem sq_last : ∀ {d : Nat} {f : Bool} {s b q : Bytes}, sq d f s = some (b, q) → ∃ a c, b = a ++ [c] ∧ CloseTok c := by
  intro d f s
  have key : ∀ (p : Bytes) (o : Option (Bytes × Bytes)),
      (∀ b q, o = some (b, q) → ∃ a c, b = a ++ [c] ∧ CloseTok c) →
      ∀ b q, push1 p o = some (b, q) → ∃ a c, b = a ++ [c] ∧ CloseTok c := by
    intro p o h b q hb
    cases o with
    | none => simp at hb
    | some x =>
      obtain ⟨b', q'⟩ := x
      simp at hb
      obtain ⟨rfl, rfl⟩ := hb
      obtain ⟨a, c, rfl, hc⟩ := h b' q' rfl
      exact ⟨p ++ a, c, by simp, hc⟩
  fun_induction sq d f s with
  | case1 => simp
  | case2 d r ih => intro b q h; exact key _ _ (fun b q => ih) b q h
  | case3 => simp
  | case4 d e r' h1 ih => intro b q h; exact key [_, _] _ (fun b q => ih) b q h
  | case5 d c r h1 h2 ih => intro b q h; exact key _ _ (fun b q => ih) b q h
  | case6 d r ih => intro b q h; exact key _ _ (fun b q => ih) b q h
  | case7 d c r h1 h2 ih => intro b q h; exact key _ _ (fun b q => ih) b q h
  | case8 d c r h1 h2 h3 h4 => intro b q h; simp at h; obtain ⟨rfl, rfl⟩ := h; exact ⟨[], c, rfl, h3⟩
  | case9 d c r h1 h2 h3 h4 ih => intro b q h; exact key _ _ (fun b q => ih) b q h
  | case10 => simp
  | case11 d e r' h1 h2 h3 ih => intro b q h; exact key [_, _] _ (fun b q => ih) b q h
  | case12 d c r h1 h2 h3 h4 ih => intro b q h; exact key _ _ (fun b q => ih) b q h

/-- The text starts and ends with an ASCII byte, or is empty. -/
def Edged (s : Bytes) : Prop := (∀ c ∈ s.head?, c < 0x80) ∧ ∀ c ∈ s.getLast?, c < 0x80

theorem edged_nil : Edged [] := ⟨by simp, by simp⟩

theorem edged_cons {c d : UInt8} (hc : c < 0x80) (hd : d < 0x80) (b : Bytes) : Edged (c :: (b ++ [d])) :=
  ⟨by simpa using hc, by rw [← List.cons_append, List.getLast?_concat]; simpa using hd⟩

/-- The value is cut out next to ASCII bytes, or is taken for a literal name (which is cut
after four or five bytes, whatever they are). -/
def Shaped (v : Value) : Prop := Edged v.slice ∨ v.kind = .true ∨ v.kind = .false ∨ v.kind = .null

theorem numTake_numCh {d : UInt8} : ∀ {r : Bytes}, d ∈ numTake r → NumCh d
  | [], h => by simp [numTake] at h
  | x :: r, h => by
    unfold numTake at h
    rw [List.takeWhile_cons] at h
    split at h
    · rename_i hx
      rcases List.mem_cons.1 h with rfl | h
      · simpa using hx
      · exact numTake_numCh h
    · simp at h

theorem leafTok_shape (i : Nat) (s : Bytes) : Shaped (tokVal i (leafTok s).1) := by
  have hs : ∀ (b : Bytes) (info : UInt32), (mkVal b (some i) info).slice = b := by intro b info; unfold mkVal; split <;> rfl
  cases s with
  | nil => exact .inl edged_nil
  | cons c r =>
    simp only [leafTok]
    split
    · rename_i hc
      subst hc
      cases hq : qStr r with
      | none => left; simp only [tokVal, hs]; exact edged_nil
      | some x =>
        obtain ⟨b, f, q⟩ := x
        left
        simp only [tokVal, hs]
        rw [(qStr_closed hq).1]
        exact edged_cons (by decide) (by decide) _
    split
    · rename_i hc
      cases hq : sq 1 false r with
      | none => left; simp only [tokVal, hs]; exact edged_nil
      | some x =>
        obtain ⟨b, q⟩ := x
        left
        simp only [tokVal, hs]
        obtain ⟨a, d, rfl, hd⟩ := sq_last hq
        exact edged_cons (by rcases hc with rfl | rfl <;> decide) (by unfold CloseTok at hd; grind) _
    split
    · rename_i hc
      left
      simp only [tokVal, hs]
      have hn : ∀ d ∈ c :: numTake r, d < 0x80 := by
        intro d hd
        rcases List.mem_cons.1 hd with rfl | hd
        · unfold NumStart at hc; grind
        · have := numTake_numCh hd
          unfold NumCh at this; grind
      exact ⟨fun d hd => hn d (List.mem_of_mem_head? hd), fun d hd => hn d (List.mem_of_getLast? hd)⟩
    split
    · split
      · exact .inl edged_nil
      · exact .inr (.inl (by simp only [tokVal, mkVal_kind]; decide))
    split
    · split
      · exact .inl edged_nil
      · exact .inr (.inr (.inl (by simp only [tokVal, mkVal_kind]; decide)))
    split
    · split
      · exact .inl edged_nil
      · exact .inr (.inr (.inr (by simp only [tokVal, mkVal_kind]; decide)))
    · exact .inl edged_nil

/-- The value borrows a piece of `json`. -/
def Piece (json : Bytes) (v : Value) : Prop := v.owned = [] ∧ v.slice <:+: json ∧ Shaped v

theorem piece_default (json : Bytes) : Piece json Value.default := ⟨rfl, List.nil_infix, .inl edged_nil⟩

theorem Piece.mono {a b : Bytes} {v : Value} (h : Piece a v) (hab : a <:+: b) : Piece b v := ⟨h.1, h.2.1.trans hab, h.2.2⟩

theorem Piece.json {b : Bytes} {v : Value} (h : Piece b v) : v.json = v.slice := by
  unfold Value.json
  rw [h.1]
  cases v.slice <;> simp

theorem tok_piece (i : Nat) (s : Bytes) : Piece s (tokVal i (leafTok s).1) := by
  cases s with
  | nil => exact piece_default _
  | cons c r =>
    rcases leafTok_split (s := c :: r) (by simp) with ⟨v, info, h1, _, h3⟩ | ⟨_, h⟩
    · rw [h1]
      simp only [tokVal]
      have hsh := leafTok_shape i (c :: r)
      rw [h1] at hsh
      refine ⟨by unfold mkVal; split <;> rfl, ?_, hsh⟩
      have : (mkVal v (some i) info).slice = v := by unfold mkVal; split <;> rfl
      rw [this]
      exact ⟨[], (leafTok (c :: r)).2, by rw [List.nil_append]; exact h3.symm⟩
    · have := exists_false.1 (h i)
      exact ⟨this.2, by rw [this.1]; exact List.nil_infix, leafTok_shape _ _⟩

theorem toks_piece (i : Nat) (s : Bytes) : ∀ v ∈ toks i s, Piece s v := by
  generalize hn : s.length = n
  induction n using Nat.strongRecOn generalizing i s with
  | ind n ih =>
    cases s with
    | nil => simp [toks_nil]
    | cons c r =>
      intro v hv
      by_cases c1 : c ≤ c! ' ' ∨ c = c! ',' ∨ c = c! ':'
      · rw [toks_skip c1] at hv
        exact (ih r.length (by simp at hn; omega) _ _ rfl v hv).mono (List.suffix_cons c r).isInfix
      by_cases c2 : c = c! '}' ∨ c = c! ']'
      · rw [toks_close c2] at hv; simp at hv
      rw [toks_tok c1 c2] at hv
      split at hv
      · rcases List.mem_cons.1 hv with rfl | hv
        · exact tok_piece _ _
        · have := leafTok_lt (s := c :: r) (by simp)
          exact (ih _ (by omega) _ _ rfl v hv).mono (leafTok_suffix (by simp)).isInfix
      · simp at hv

theorem eachToks_piece (i : Nat) (lines : Bool) (s : Bytes) : ∀ v ∈ eachToks i lines s, Piece s v := by
  unfold eachToks
  split
  · exact toks_piece _ _
  · intro v hv
    exact (toks_piece _ _ v hv).mono (List.drop_suffix 1 s).isInfix

theorem gObjLoop_piece {R : Path → Prop} {d : Bytes → Res (Value × Path)} {p : Path} (L : Nat) (hR : R p) :
    ∀ (s : Bytes), (∀ t, t <:+ s → ∀ x, p.dives = true → d t = .ok x → Piece t x.1 ∧ R x.2) →
      ∀ x, gObjLoop d L p s = .ok x → Piece s x.1 ∧ R x.2 := by
  intro s
  generalize hn : s.length = n
  induction n using Nat.strongRecOn generalizing s with
  | ind n ih =>
    intro hd x h
    cases s with
    | nil => rw [gObjLoop_nil] at h; cases h; exact ⟨piece_default _, hR⟩
    | cons c r =>
      by_cases c1 : c = c! '}'
      · rw [c1, gObjLoop_close] at h; cases h; exact ⟨piece_default _, hR⟩
      by_cases c2 : c = c! '"'
      · subst c2
        cases hq : qStr r with
        | none => rw [gObjLoop_nokey _ _ _ hq] at h; cases h; exact ⟨piece_default _, hR⟩
        | some y =>
          obtain ⟨b, f, q⟩ := y
          cases hv' : pSkipColon q with
          | nil => rw [gObjLoop_noval _ _ _ hq hv'] at h; cases h; exact ⟨piece_default _, hR⟩
          | cons c3 r3 =>
            rw [gObjLoop_key _ _ _ hq hv'] at h
            have l1 := qStr_lt hq
            have l2 := pSkipColon_le q
            rw [hv'] at l2
            have l3 := leafTok_lt (s := c3 :: r3) (by simp)
            simp only [List.length_cons] at hn l2 l3
            have s1 : c3 :: r3 <:+ c! '"' :: r := by
              rw [← hv']
              exact (pSkipColon_suffix q).trans (List.IsSuffix.trans ⟨b, (qStr_append hq).symm⟩ (List.suffix_cons _ _))
            have s2 := (leafTok_suffix (s := c3 :: r3) (by simp)).trans s1
            have next : ∀ t, t <:+ c! '"' :: r → t.length < n → gObjLoop d L p t = .ok x → Piece (c! '"' :: r) x.1 ∧ R x.2 := by
              intro t ht hl hx
              obtain ⟨y1, y2⟩ := ih t.length hl t rfl (fun u hu => hd u (hu.trans ht)) x hx
              exact ⟨y1.mono ht.isInfix, y2⟩
            split at h
            · split at h
              · rename_i hdv
                obtain ⟨y, h1, h2⟩ := bind_eq_ok.1 h
                obtain ⟨v1, q1⟩ := y
                simp only at h2
                split at h2
                · cases h2
                  obtain ⟨y1, y2⟩ := hd _ s1 _ hdv.1 h1
                  exact ⟨y1.mono s1.isInfix, y2⟩
                · exact next _ s1 (by simp only [List.length_cons]; omega) h2
              · split at h
                · cases h
                  exact ⟨(tok_piece _ _).mono s1.isInfix, hR⟩
                · exact next _ s2 (by omega) h
            · exact next _ s2 (by omega) h
      · rw [gObjLoop_skip _ _ _ _ c1 c2] at h
        obtain ⟨y1, y2⟩ := ih r.length (by simp at hn; omega) r rfl (fun u hu => hd u (hu.trans (List.suffix_cons _ _))) x h
        exact ⟨y1.mono (List.suffix_cons _ _).isInfix, y2⟩

/-- What remains of a path of ordinary components. -/
def OrdRest (n : Nat) (p : Path) : Prop := ∃ ks, ks ≠ [] ∧ ks.length ≤ n ∧ OrdComps ks ∧ p = pNext (dotPath ks)

theorem gArrVals_piece (rec : GetFn) {k : Bytes} (hk : PlainFirst k) {e p : Bool} {sep : UInt8} {m : Nat} {rest : Bytes}
    {vals : List Value} {s : Bytes} (hv : ∀ v ∈ vals, Piece s v) {x : Value × Path}
    (h : gArrVals rec ⟨k, e, p, sep, m, rest⟩ vals = .ok x) : Piece s x.1 ∧ x.2 = ⟨k, e, p, sep, m, rest⟩ := by
  rw [gArrVals_ord rec hk] at h
  cases h
  refine ⟨?_, rfl⟩
  simp only
  split
  · exact piece_default _
  · rw [List.getD_eq_getElem?_getD]
    cases hk : vals[((parseI64 k).getD (-1)).toNat]? with
    | none => exact piece_default _
    | some v => exact hv v (List.mem_of_getElem? hk)

theorem gCont_piece (L : Nat) {ks : List Bytes} : OrdComps ks → ks ≠ [] → ∀ (s : Bytes) (x : Value × Path),
    gCont get L (pNext (dotPath ks)) s = .ok x → Piece s x.1 ∧ OrdRest ks.length x.2 := by
  induction ks with
  | nil => intro _ h; exact absurd rfl h
  | cons k ks ih =>
    intro ho _ s x h
    have hk := ho k (by simp)
    have hto : OrdComps ks := fun x hx => ho x (List.mem_cons_of_mem _ hx)
    have hself : OrdRest (k :: ks).length (pNext (dotPath (k :: ks))) := ⟨_, by simp, Nat.le_refl _, ho, rfl⟩
    unfold gCont at h
    split at h
    · rename_i hs
      cases s with
      | nil => simp at hs
      | cons c r =>
        simp at hs
        subst hs
        rw [gObj_cons] at h
        have := gObjLoop_piece (R := OrdRest (k :: ks).length) L hself r (fun t ht x hdv hx => ?_) x h
        · exact ⟨this.1.mono (List.suffix_cons _ _).isInfix, this.2⟩
        · rw [if_pos hdv] at hx
          have hks : ks ≠ [] := by
            rintro rfl
            obtain ⟨e, p, h1, _⟩ := ord_next (ks := []) [] hk
            rw [(h1 rfl).1] at hdv
            unfold Path.dives at hdv; simp at hdv
          obtain ⟨e, p, _, h2⟩ := ord_next (ks := ks) [] hk
          rw [(h2 hks).1] at hx
          obtain ⟨y1, ms, y2, y3, y4⟩ := ih hto hks t x hx
          exact ⟨y1, ms, y2, by simp; omega, y4⟩
    · obtain ⟨e, p, h1, h2⟩ := ord_next (ks := ks) [] hk
      unfold gArr at h
      by_cases hks : ks = []
      · rw [(h1 hks).1] at h hself
        obtain ⟨y1, y2⟩ := gArrVals_piece get hk.2.1 (eachToks_piece _ _ _) h
        exact ⟨y1, y2 ▸ hself⟩
      · rw [(h2 hks).1] at h hself
        obtain ⟨y1, y2⟩ := gArrVals_piece get hk.2.1 (eachToks_piece _ _ _) h
        exact ⟨y1, y2 ▸ hself⟩

theorem gStart_piece (L : Nat) {ks : List Bytes} (ho : OrdComps ks) (hne : ks ≠ []) : ∀ (s : Bytes) (x : Value × Path),
    gStart get L (pNext (dotPath ks)) s = .ok x → Piece s x.1 ∧ OrdRest ks.length x.2
  | [], x, h => by cases h; exact ⟨piece_default _, ks, hne, Nat.le_refl _, ho, rfl⟩
  | c :: r, x, h => by
    unfold gStart at h
    split at h
    · obtain ⟨h1, h2⟩ := gStart_piece L ho hne r x h
      exact ⟨h1.mono (List.suffix_cons _ _).isInfix, h2⟩
    have := gCont_piece L ho hne (c :: r) x
    unfold gCont at this
    split at h
    · rename_i hc
      exact this (by rw [if_pos (by simp [hc])]; exact h)
    split at h
    · rename_i hc _
      exact this (by rw [if_neg (by simpa using hc)]; exact h)
    · cases h; exact ⟨piece_default _, ks, hne, Nat.le_refl _, ho, rfl⟩

theorem Shaped.addIndex {v : Value} (h : Shaped v) (i : Option Nat) : Shaped (addIndex i v) := by
  unfold Shaped
  rw [(addIndex_parts i v).1, (sameValue_addIndex i v).kind]
  exact h

theorem addIndex_piece {b : Bytes} {v : Value} (i : Option Nat) (h : Piece b v) : Piece b (addIndex i v) := by
  obtain ⟨h1, h2⟩ := addIndex_parts i v
  exact ⟨h2.trans h.1, h1 ▸ h.2.1, h.2.2.addIndex i⟩

theorem get_piece {n : Nat} : ∀ {ks : List Bytes}, ks.length ≤ n → OrdComps ks → ks ≠ [] → ∀ {json : Bytes} {v : Value},
    get json (dotPath ks) = .ok v → v.json <:+: json ∧ v.slice <:+: json ∧ (v.exists → v.owned = []) ∧ Shaped v := by
  induction n with
  | zero => intro ks hn _ hne; cases ks <;> simp at hn hne
  | succ n ih =>
    intro ks hn ho hne json v h
    obtain ⟨k, ks', rfl⟩ : ∃ k ks', ks = k :: ks' := by
      cases ks with
      | nil => exact absurd rfl hne
      | cons a b => exact ⟨a, b, rfl⟩
    rw [(get_dotOrd (ks := ks') (ho k (by simp)) json []).1] at h
    obtain ⟨⟨u, p⟩, h1, h2⟩ := bind_eq_ok.1 h
    obtain ⟨x1, ms, x2, x3, x4, x5⟩ := gStart_piece _ ho hne _ _ h1
    simp only at x1 x5
    subst x5
    obtain ⟨m, ms, rfl⟩ : ∃ m ms', ms = m :: ms' := by
      cases ms with
      | nil => exact absurd rfl x2
      | cons a b => exact ⟨a, b, rfl⟩
    obtain ⟨e, p, y1, y2⟩ := ord_next (ks := ms) [] (x4 m (by simp))
    by_cases hms : ms = []
    · rw [(y1 hms).1] at h2
      cases h2
      exact ⟨by rw [x1.json]; exact x1.2.1, x1.2.1, fun _ => x1.1, x1.2.2⟩
    · rw [(y2 hms).1] at h2
      have hlen : ms.length ≤ n := by simp at x3 hn; omega
      have ih' := @ih ms hlen (fun x hx => x4 x (List.mem_cons_of_mem _ hx)) hms
      replace h2 : getIn get u (dotPath ms) = .ok v := h2
      unfold getIn at h2
      split at h2
      · obtain ⟨w, z1, z2⟩ := bind_eq_ok.1 h2
        cases z2
        obtain ⟨a, b, c, d⟩ := ih' z1
        refine ⟨?_, ?_, ?_, d.addIndex _⟩
        · rw [(sameValue_addIndex _ _).json]; exact a.trans x1.2.1
        · rw [(addIndex_parts _ _).1]; exact b.trans x1.2.1
        · rw [addIndex_exists, (addIndex_parts _ _).2]; exact c
      · obtain ⟨w, z1, z2⟩ := bind_eq_ok.1 h2
        cases z2
        rw [x1.1] at z1
        obtain ⟨a, _, _, _⟩ := ih' z1
        have hw : w.exists = false := by
          cases he : w.exists with
          | false => rfl
          | true =>
            unfold Value.exists at he
            rw [List.infix_nil] at a
            simp [a] at he
        obtain ⟨p1, p2⟩ := exists_false.1 hw
        have hj : (jsonIntoOwned w).exists = false := by rw [jsonIntoOwned_exists]; simp [p1, p2]
        have hq := exists_false.1 hj
        refine ⟨?_, ?_, ?_, .addIndex (.inl (by rw [hq.1]; exact edged_nil)) _⟩
        · rw [(sameValue_addIndex _ _).json]
          unfold Value.exists at hj
          have : (jsonIntoOwned w).json = [] := by simpa using hj
          rw [this]; exact List.nil_infix
        · rw [(addIndex_parts _ _).1, hq.1]; exact List.nil_infix
        · rw [addIndex_exists, hj]; simp

end Gjson
