import Verif.Lemmas.PrettyLoop
/-
`pretty` prints every JSON text.
-/
namespace Gjson
open Spec

theorem arrBody {json : Bytes} {any : PrettyFn} (hany : AnyPrints json any) {a : PArgs} {tabs max : Int} {depth : Nat} {v r buf : Bytes}
    {ds : List Doc} (hf : FmtOk a max) (hr : After r) (hv : Denotes v (.arr ds)) {i fuel : Nat} {nl : Int} {buf' : Bytes} {j : Nat} {nl' : Int} {ok : Bool}
    (hlim : depth < MAX_DEPTH) (hA : At json i (v ++ r))
    (h : prettyObjLoop any json (c! '[') (c! ']') a tabs max depth fuel (i + 1) nl (buf ++ [c! '[']) [] 0 = .ok (buf', j, nl', ok))
    (hok : max = -1 ∨ ok = true) : Printed json a.sortKeys (MAX_DEPTH - 1 - depth + 1) buf (.arr ds) r buf' j := by
  cases hv with
  | @arrEmpty w hw =>
    have hA' := hA.cons
    simp only [List.append_eq, List.append_assoc, List.cons_append, List.nil_append] at hA'
    obtain ⟨fuel', i', hA1, h1⟩ := objLoop_ws hw hA' h
    have h1 := objLoop_close (by decide) hA1 h1
    obtain ⟨b, w', h2, h2', hw', h3, h4⟩ := prettyClose_text hf h1
    have hb : b = buf ++ [c! '['] := by
      cases hp : a.pretty
      · exact h2' hp
      · have := h2 hp
        unfold closeSort at this
        rw [if_neg (by simp)] at this
        cases this; rfl
    subst hb
    simp only at h3 h4
    left
    refine ⟨by simp [Doc.height, elemHeight], [c! '['] ++ (w' ++ [c! ']']), by rw [h3]; simp, ?_, by rw [h4]; exact hA1.cons⟩
    rw [norm_arr]
    have := (((Frag.struct (c := c! '[') (by decide)).b.ws hw').sep (c := c! ']') (by decide)).b
    simpa [Doc.toks, elemToks] using this
  | @arr es hne hw hd =>
    cases es with
    | nil => exact absurd rfl hne
    | cons e es =>
      obtain ⟨s, hs, hs'⟩ := restA_of_elems (r := r) hw hd
      have hA' := hA.cons
      simp only [List.append_eq, List.append_assoc, List.cons_append, List.nil_append] at hA'
      rw [hs'] at hA'
      obtain ⟨fuel', i', hA1, h1⟩ := objLoop_ws (hw e (by simp)).1 hA' h
      have hv := hd e (by simp)
      obtain ⟨c, q, hcq, hsv⟩ := Gjson.IsValue.cons (value_of_denotes hv)
      have hA2 := hA1
      rw [hcq] at hA2
      obtain ⟨nl1, b1, b2, i2, nl2, kend, b3, i3, nl3, ok3, fuel2, e1, e2, e3, h2⟩ :=
        objLoop_item hA2 (by unfold StartsValue IsDigit at hsv; grind) (by unfold StartsValue IsDigit at hsv; grind) (.inl rfl) h1
      obtain ⟨w1, hw1, rfl, _⟩ := sepLine e1 (fun _ => ⟨buf, rfl⟩) (by decide)
      obtain ⟨w2, hw2, hind⟩ := prettyIndent_ws hf tabs (buf ++ [c! '['] ++ ((if 0 > 0 then [c! ','] else []) ++ w1))
      unfold prettyKey at e2
      rw [if_neg (by decide)] at e2
      cases e2
      rcases h2 with ⟨hm, hf', hres⟩ | ⟨hok3, h2⟩
      · cases hres; rcases hok with hok | hok
        · exact absurd hok hm
        · cases hok
      rw [hind, if_neg (by decide), List.nil_append] at e3
      have hpr := hany a (tabs + 1) max depth _ i' nl1 [] e.1.val s e.2 b3 i3 nl3 ok3 hf hlim
        (by simp) hv (hs.after hr.calm) hA1 e3 hok3
      have hsep : Frag ([c! '['] ++ (w1 ++ w2)) [[c! '[']] := by
        have := (Frag.struct (c := c! '[') (by decide)).append (Frag.ws (ws_append hw1 hw2))
        simpa using this
      rcases hpr with ⟨hle, p, rfl, hp, hA3⟩ | ⟨hgt, p, rfl, hp, hj⟩
      · have hq3 := hsep.appendB hp
        have e' : buf ++ [c! '['] ++ w1 ++ w2 ++ p = buf ++ ([c! '['] ++ (w1 ++ w2) ++ p) := by simp
        rw [e'] at h2
        rcases arrLoop hany hf hr.calm hs hlim hA3 hq3 (Nat.succ_pos 0) h2 hok with ⟨hle', p', h5, h6, h7⟩ | ⟨hgt, p', h5, h6, h7⟩
        · left
          refine ⟨by simp only [List.map_cons, Doc.height, elemHeight]; omega, p', h5, ?_, h7⟩
          rw [norm_arr]
          simp only [List.map_cons, Doc.toks, elemToks_cons]
          simpa using h6
        · right
          refine ⟨by simp only [List.map_cons, Doc.height, elemHeight]; omega, p', h5, ?_, h7⟩
          rw [normLim_arr, List.map_cons, limDocs_fit hle]
          simp only [Doc.toks, elemToks_cons]
          simpa using h6
      · have := objLoop_end (by omega) h2
        simp only at this
        right
        refine ⟨by simp only [List.map_cons, Doc.height, elemHeight]; omega, [c! '['] ++ (w1 ++ w2) ++ p, by rw [this.1]; simp, ?_, by rw [this.2, hj]⟩
        have := hsep.appendB hp
        rw [hs.tokens] at this
        rw [normLim_arr, List.map_cons, limDocs_deep hgt]
        simp only [Doc.toks, elemToks_cons]
        simpa using this

theorem objBody {json : Bytes} {any : PrettyFn} (hany : AnyPrints json any) {a : PArgs} {tabs : Int} {depth : Nat} {v r buf : Bytes}
    {ds : List (Bytes × Doc)} (hf : FmtOk a (-1)) (hr : After r) (hv : Denotes v (.obj ds)) {i fuel : Nat} {nl : Int} {buf' : Bytes} {j : Nat} {nl' : Int} {ok : Bool}
    (hlim : depth < MAX_DEPTH) (hA : At json i (v ++ r))
    (h : prettyObjLoop any json (c! '{') (c! '}') a tabs (-1) depth fuel (i + 1) nl (buf ++ [c! '{']) [] 0 = .ok (buf', j, nl', ok)) :
    Printed json a.sortKeys (MAX_DEPTH - 1 - depth + 1) buf (.obj ds) r buf' j := by
  have hpretty : a.pretty = true := by
    rcases hf.mode with h | h
    · exact h.2
    · exact absurd rfl h.1
  cases hv with
  | @objEmpty w hw =>
    have hA' := hA.cons
    simp only [List.append_eq, List.append_assoc, List.cons_append, List.nil_append] at hA'
    obtain ⟨fuel', i', hA1, h1⟩ := objLoop_ws hw hA' h
    have h1 := objLoop_close (by decide) hA1 h1
    obtain ⟨b, w', h2, _, hw', h3, h4⟩ := prettyClose_text hf h1
    have hb : b = buf ++ [c! '{'] := by
      have := h2 hpretty
      unfold closeSort at this
      split at this
      · cases this; rfl
      · cases this; rfl
    subst hb
    simp only at h3 h4
    left
    refine ⟨by simp [Doc.height, memHeight], [c! '{'] ++ (w' ++ [c! '}']), by rw [h3]; simp, ?_, by rw [h4]; exact hA1.cons⟩
    rw [norm_obj]
    have := (((Frag.struct (c := c! '{') (by decide)).b.ws hw').sep (c := c! '}') (by decide)).b
    have ho : order a.sortKeys [] = [] := by unfold order; split <;> rfl
    simpa [Doc.toks, memToks, ho] using this
  | @obj es hne hw hd =>
    cases es with
    | nil => exact absurd rfl hne
    | cons e es =>
      obtain ⟨s, hs, hs'⟩ := restO_of_members (r := r) hw hd
      have hA' := hA.cons
      simp only [List.append_eq, List.append_assoc, List.cons_append, List.nil_append] at hA'
      rw [hs'] at hA'
      have hW := hw e (by simp)
      obtain ⟨fuel', i', hA1, h1⟩ := objLoop_ws hW.1 hA' h
      have hv := hd e (by simp)
      rcases objLoop_member (buf0 := buf) hany hf hW.2.1 hW.2.2.1 hW.2.2.2.1 hv (hs.after hr.calm) hlim
        (.inl ⟨rfl, rfl, rfl, rfl⟩) hA1 h1 with
        ⟨hle, fuel4, i4, nl4, buf4, pairs4, it, hit1, hit2, hA4, hst4, h4⟩ | ⟨hgt, q, h5, h6, h7⟩
      · have hkd : it.kd = (e.1.key, norm a.sortKeys e.2) := by unfold Item.kd; rw [hit1, hit2]
        rcases objLoop hany hf hr.calm hs hlim hA4 (Nat.succ_pos 0) hst4 h4 with
          ⟨hle', q, h5, h6, h7⟩ | ⟨hgt, q, h5, h6, h7⟩
        · left
          refine ⟨by simp only [List.map_cons, Doc.height, memHeight]; omega, q, h5, ?_, h7⟩
          rw [norm_obj]
          simp only [Doc.toks]
          simpa [hkd] using h6
        · right
          refine ⟨by simp only [List.map_cons, Doc.height, memHeight]; omega, q, h5, ?_, h7⟩
          rw [normLim_obj (by simp only [List.map_cons, memHeight]; omega), List.map_cons, limMems_fit hle]
          simp only [Doc.toks]
          simpa [hkd] using h6
      · right
        refine ⟨by simp only [List.map_cons, Doc.height, memHeight]; omega, q, h5, ?_, h7⟩
        rw [normLim_obj (by simp only [List.map_cons, memHeight]; omega), List.map_cons, limMems_deep hgt]
        rw [hs.tokens] at h6
        simp only [Doc.toks, memToks_cons]
        simpa [memToks_cons, commaM] using h6

/-- Below the depth limit the rest of the text is copied without whitespace. -/
theorem printed_rest {json : Bytes} {b : Bool} {buf v r : Bytes} {d : Doc} {i : Nat} (hd : 0 < d.height) (hv : Denotes v d) (hr : After r)
    (hA : At json i (v ++ r)) {nl nl' : Int} {buf' : Bytes} {j : Nat} {ok : Bool}
    (h : (sliceFrom json i >>= fun rest => ugly rest >>= fun f => (.ok (buf ++ f, json.length, nl, true) : PRes)) = .ok (buf', j, nl', ok)) :
    Printed json b 0 buf d r buf' j := by
  rw [hA.sliceFrom] at h
  simp only [ok_bind, ugly_eq] at h
  cases h
  right
  refine ⟨hd, _, rfl, ?_, rfl⟩
  rw [normLim_zero]
  have := Calm.value hv hr.follow.break hr.brk hr.calm
  unfold Calm at this
  rwa [tokens_value hv _ hr.follow.break] at this

theorem prettyObj_arr {json : Bytes} {any : PrettyFn} (hany : AnyPrints json any) {v r : Bytes} {ds : List Doc} (hr : After r) (hv : Denotes v (.arr ds))
    {i : Nat} (hA : At json i (v ++ r)) {depth : Nat} {buf buf' : Bytes} {j : Nat} : ∀ (k : Nat) {a : PArgs} {tabs max : Int} {nl nl' : Int} {ok : Bool},
    FmtOk a max → depth ≤ MAX_DEPTH →
    prettyObj any json k (c! '[') (c! ']') a tabs max depth buf i nl = .ok (buf', j, nl', ok) → (max = -1 ∨ ok = true) →
    Printed json a.sortKeys (MAX_DEPTH - depth) buf (.arr ds) r buf' j
  | 0, _, _, _, _, _, _, _, _, h, _ => by simp [prettyObj, outOfFuel] at h
  | k + 1, a, tabs, max, nl, nl', ok, hf, hlim, h, hok => by
    unfold prettyObj at h
    split at h
    · rename_i hd
      rw [show MAX_DEPTH - depth = 0 by omega]
      exact printed_rest (by simp [Doc.height]) hv hr hA h
    · rename_i hd
      have hlt : depth < MAX_DEPTH := by omega
      rw [show MAX_DEPTH - depth = MAX_DEPTH - 1 - depth + 1 by omega]
      simp only at h
      have body := fun hh => arrBody (buf := buf) (tabs := tabs) (nl := nl) (nl' := nl') (ok := ok) (buf' := buf') (j := j) (fuel := json.length + 1) hany hf hr hv hlt hA hh hok
      split at h
      · split at h
        · rename_i hw hp
          split at h
          · rename_i hmax
            obtain ⟨⟨b1, i1, nl1, ok1⟩, h1, h⟩ := bind_eq_ok.1 h
            simp only at h
            split at h
            · rename_i hfit
              cases h
              have := prettyObj_arr hany hr hv hA k (a := { a with pretty := false, indent := [] })
                ⟨hf.pfx, ws_nil, .inr ⟨by omega, rfl, hw⟩⟩ hlim h1 (.inr hfit.1)
              rw [show MAX_DEPTH - depth = MAX_DEPTH - 1 - depth + 1 by omega] at this
              exact this
            · exact body h
          · exact body h
        · split at h
          · rename_i hm; exact absurd hm.2 (by decide)
          · exact body h
      · exact body h

theorem prettyObj_obj {json : Bytes} {any : PrettyFn} (hany : AnyPrints json any) {v r : Bytes} {ds : List (Bytes × Doc)} (hr : After r) (hv : Denotes v (.obj ds))
    {i : Nat} (hA : At json i (v ++ r)) {depth : Nat} {buf buf' : Bytes} {j : Nat} (k : Nat) {a : PArgs} {tabs max : Int} {nl nl' : Int} {ok : Bool}
    (hf : FmtOk a max) (hlim : depth ≤ MAX_DEPTH)
    (h : prettyObj any json k (c! '{') (c! '}') a tabs max depth buf i nl = .ok (buf', j, nl', ok)) (hok : max = -1 ∨ ok = true) :
    Printed json a.sortKeys (MAX_DEPTH - depth) buf (.obj ds) r buf' j := by
  cases k with
  | zero => simp [prettyObj, outOfFuel] at h
  | succ k =>
    unfold prettyObj at h
    split at h
    · rename_i hd
      rw [show MAX_DEPTH - depth = 0 by omega]
      exact printed_rest (by simp [Doc.height]) hv hr hA h
    · rename_i hd
      have hlt : depth < MAX_DEPTH := by omega
      rw [show MAX_DEPTH - depth = MAX_DEPTH - 1 - depth + 1 by omega]
      simp only at h
      rcases hf.mode with ⟨rfl, hp⟩ | ⟨hm, hp, hw⟩
      · have body := fun hh => objBody (buf := buf) (tabs := tabs) (nl := nl) (nl' := nl') (ok := ok) (buf' := buf') (j := j) (fuel := json.length + 1) hany hf hr hv hlt hA hh
        split at h
        · rw [if_neg (by simp), if_neg (by simp)] at h
          exact body h
        · exact body h
      · rw [if_pos hw, if_neg (by simp [hp]), if_pos ⟨hm, trivial⟩] at h
        cases h
        rcases hok with h | h
        · exact absurd h hm
        · cases h

theorem prettyNumberEnd_at {json : Bytes} {r : Bytes} (hr : Follow r) : ∀ {n i : Nat} {t : Bytes}, (∀ c ∈ t, NumCh c) → At json i (t ++ r) → t.length < n →
    prettyNumberEnd json n i = .ok (i + t.length)
  | 0, _, _, _, _, h => by omega
  | n + 1, i, [], _, hA, _ => by
    unfold prettyNumberEnd
    cases r with
    | nil => rw [if_neg (by have := At.nil hA; omega)]; rfl
    | cons c r =>
      rw [if_pos (At.lt hA), At.idx hA]
      simp only [ok_bind]
      have := hr c (by simp)
      rw [if_pos (by unfold IsWs at this; grind)]; rfl
  | n + 1, i, c :: t, ht, hA, hn => by
    unfold prettyNumberEnd
    rw [if_pos (At.lt hA), At.idx hA]
    simp only [ok_bind]
    have := ht c (by simp)
    rw [if_neg (by unfold NumCh at this; grind (splits := 30))]
    rw [prettyNumberEnd_at hr (fun x hx => ht x (by simp [hx])) (At.cons hA) (by simp at hn; omega)]
    simp; omega

theorem anyLoop {json : Bytes} {any : PrettyFn} (hany : AnyPrints json any) {a : PArgs} {tabs max : Int} {depth : Nat} {buf : Bytes} {nl : Int}
    {v r : Bytes} {d : Doc} {buf' : Bytes} {j : Nat} {nl' : Int} {ok : Bool} (hf : FmtOk a max) (hlim : depth < MAX_DEPTH)
    (hv : Denotes v d) (hr : After r) (hok : max = -1 ∨ ok = true) : ∀ {n i : Nat} {g : Bytes}, (∀ c ∈ g, c ≤ c! ' ' ∨ c = c! ',' ∨ c = c! ':') →
    At json i (g ++ (v ++ r)) → prettyAnyLoop any json a tabs max depth buf nl n i = .ok (buf', j, nl', ok) →
    Printed json a.sortKeys (MAX_DEPTH - 1 - depth) buf d r buf' j
  | 0, _, _, _, _, h => by simp [prettyAnyLoop, outOfFuel] at h
  | n + 1, i, c :: g, hg, hA, h => by
    unfold prettyAnyLoop at h
    rw [if_pos (At.lt hA), At.idx hA] at h
    simp only [ok_bind] at h
    have hrec := fun hh => anyLoop hany (tabs := tabs) (nl := nl) (nl' := nl') (buf := buf) (buf' := buf') (j := j) hf hlim hv hr hok (n := n) (i := i + 1) (g := g) (fun x hx => hg x (by simp [hx])) (At.cons hA) hh
    rcases hg c (by simp) with hc | rfl | rfl
    · rw [if_pos hc] at h; exact hrec h
    · simp at h; exact hrec h
    · simp at h; exact hrec h
  | n + 1, i, [], _, hA, h => by
    rw [List.nil_append] at hA
    have hA0 := hA
    cases hv with
    | leaf hval h1 h2 =>
      have done : ∀ {p : Bytes}, buf' = buf ++ v → j = i + v.length → Printed json a.sortKeys (MAX_DEPTH - 1 - depth) buf (.leaf v) r buf' j := by
        intro _ e1 e2
        left
        refine ⟨by simp [Doc.height], v, e1, ?_, by rw [e2]; exact hA.append⟩
        rw [norm_leaf]
        exact FragB.value (.leaf hval h1 h2)
      cases hval with
      | null =>
        unfold prettyAnyLoop at h
        rw [if_pos (At.lt hA), At.idx hA] at h
        simp at h
        exact done (p := []) h.1.symm h.2.1.symm
      | true =>
        unfold prettyAnyLoop at h
        rw [if_pos (At.lt hA), At.idx hA] at h
        simp at h
        exact done (p := []) h.1.symm h.2.1.symm
      | false =>
        unfold prettyAnyLoop at h
        rw [if_pos (At.lt hA), At.idx hA] at h
        simp at h
        exact done (p := []) h.1.symm h.2.1.symm
      | str hs =>
        obtain ⟨body, hb, rfl⟩ := hs
        have hA1 : At json i (c! '"' :: (body ++ c! '"' :: r)) := by simpa using hA
        unfold prettyAnyLoop at h
        rw [if_pos (At.lt hA1), At.idx hA1] at h
        simp only [ok_bind] at h
        rw [if_neg (by decide), if_pos trivial, prettyString_eq buf nl hA1, ← strSplit_eq, strSplit_body hb] at h
        cases h
        exact done (p := []) (by simp) (by simp; omega)
      | num hn =>
        have hch := numLit_numCh hn
        obtain ⟨c, q, rfl, hcd⟩ := NumLit.cons hn
        unfold prettyAnyLoop at h
        rw [if_pos (At.lt hA), At.idx hA] at h
        simp only [ok_bind] at h
        rw [if_neg (by unfold IsDigit at hcd; grind), if_neg (by unfold IsDigit at hcd; grind), if_pos (by unfold IsDigit at hcd; grind)] at h
        unfold prettyNumber at h
        rw [prettyNumberEnd_at hr.follow (t := q) (fun x hx => hch x (by simp [hx])) (At.cons hA) (by have := At.len hA; simp at this; omega)] at h
        simp only [ok_bind] at h
        rw [At.slice' hA (by simp; omega)] at h
        cases h
        exact done (p := []) rfl (by simp; omega)
      | arrEmpty _ => exact absurd rfl h2
      | arr _ _ _ => exact absurd rfl h2
      | objEmpty _ => exact absurd rfl h1
      | obj _ _ _ => exact absurd rfl h1
    | arrEmpty hw =>
      unfold prettyAnyLoop at h
      rw [if_pos (At.lt hA), At.idx hA] at h
      simp only [ok_bind] at h
      simp at h
      have := prettyObj_arr hany hr (.arrEmpty hw) hA0 2 hf (by omega) h hok
      rwa [show MAX_DEPTH - (depth + 1) = MAX_DEPTH - 1 - depth by omega] at this
    | @arr es hne hw hd =>
      unfold prettyAnyLoop at h
      rw [if_pos (At.lt hA), At.idx hA] at h
      simp only [ok_bind] at h
      simp at h
      have := prettyObj_arr hany hr (.arr hne hw hd) hA0 2 hf (by omega) h hok
      rwa [show MAX_DEPTH - (depth + 1) = MAX_DEPTH - 1 - depth by omega] at this
    | objEmpty hw =>
      unfold prettyAnyLoop at h
      rw [if_pos (At.lt hA), At.idx hA] at h
      simp only [ok_bind] at h
      simp at h
      have := prettyObj_obj hany hr (.objEmpty hw) hA0 2 hf (by omega) h hok
      rwa [show MAX_DEPTH - (depth + 1) = MAX_DEPTH - 1 - depth by omega] at this
    | @obj es hne hw hd =>
      unfold prettyAnyLoop at h
      rw [if_pos (At.lt hA), At.idx hA] at h
      simp only [ok_bind] at h
      simp at h
      have := prettyObj_obj hany hr (.obj hne hw hd) hA0 2 hf (by omega) h hok
      rwa [show MAX_DEPTH - (depth + 1) = MAX_DEPTH - 1 - depth by omega] at this

theorem prettyAny_prints (json : Bytes) : ∀ n, AnyPrints json (prettyAny json n)
  | 0 => by
    intro a tabs max depth buf i nl g v r d buf' j nl' ok _ _ _ _ _ _ h
    simp [prettyAny, outOfFuel] at h
  | n + 1 => by
    intro a tabs max depth buf i nl g v r d buf' j nl' ok hf hlim hg hv hr hA h hok
    exact anyLoop (prettyAny_prints json n) hf hlim hv hr hok hg hA h

/-- `pretty` of a JSON text has the tokens of the document, sorted down to the depth limit. -/
theorem prettyOptions_tokens_all {t v out : Bytes} {d : Doc} (hv : Denotes v d) (hp : Padded v t) {o : PrettyOptions} (hpfx : Ws o.pfx) (hind : Ws o.indent)
    (h : prettyOptions t o = .ok out) : tokens out = (normLim o.sortKeys (MAX_DEPTH - 1) d).toks := by
  obtain ⟨w1, w2, hw1, hw2, rfl⟩ := hp
  unfold prettyOptions at h
  simp only at h
  obtain ⟨⟨buf, j, nl, ok⟩, h1, h⟩ := bind_eq_ok.1 h
  have hpr := prettyAny_prints _ _ _ _ _ _ _ _ _ w1 v w2 d buf j nl ok ⟨hpfx, hind, .inl ⟨rfl, rfl⟩⟩ (by decide)
    (by intro c hc; have := hw1 c hc; unfold IsWs at this; left; grind) hv (by simpa using After.ws hw2 .nil) (At.zero _) h1 (.inl rfl)
  have hbuf : ∃ p w, buf = w ++ p ∧ Ws w ∧ FragB p (normLim o.sortKeys (MAX_DEPTH - 1) d).toks := by
    have hw : Ws (if o.pfx.length ≠ 0 then o.pfx else []) := by
      split
      · exact hpfx
      · exact ws_nil
    rcases hpr with ⟨hle, p, rfl, hp, _⟩ | ⟨hb, p, rfl, hp, _⟩
    · refine ⟨p, _, rfl, hw, ?_⟩
      rw [normLim_fit (by simpa using hle)]; exact hp
    · refine ⟨p, _, rfl, hw, ?_⟩
      have ht : tokens w2 = [] := by have := tokens_ws hw2 []; rwa [List.append_nil, tokens_nil] at this
      rw [ht, List.append_nil] at hp
      exact hp
  obtain ⟨p, w, rfl, hw, hp⟩ := hbuf
  simp only at h
  have hnl : FragB (w ++ p ++ [c! '\n']) (normLim o.sortKeys (MAX_DEPTH - 1) d).toks := by
    have := ((Frag.ws hw).appendB hp).ws ws_nl
    simpa using this
  split at h
  · cases h; exact hnl.tokens
  · cases h
    have := ((Frag.ws hw).appendB hp).tokens
    simpa using this

/-- `pretty` of a JSON text has the tokens of the (sorted) document. -/
theorem prettyOptions_tokens {t v out : Bytes} {d : Doc} (hv : Denotes v d) (hp : Padded v t) {o : PrettyOptions} (hpfx : Ws o.pfx) (hind : Ws o.indent)
    (hlim : o.sortKeys = true → d.height < MAX_DEPTH) (h : prettyOptions t o = .ok out) : tokens out = (norm o.sortKeys d).toks := by
  rw [prettyOptions_tokens_all hv hp hpfx hind h]
  cases hs : o.sortKeys
  · rfl
  · rw [normLim_fit (by have := hlim hs; omega)]

end Gjson
