import Verif.Lemmas.Layout
/-
The exact text written by `pretty` on JSON texts of any depth.
-/
namespace Gjson
open Spec

theorem RestA.ugly {r ds s} (h : RestA r ds s) : pUgly s = restElems ds ++ pUgly r := by
  induction h with
  | nil hw => rw [pUgly_ws hw, pUgly_struct (by decide)]; rfl
  | cons hw hw' hv _ ih =>
    rw [pUgly_ws hw, pUgly_struct (by decide), pUgly_ws hw', pUgly_value hv, ih]
    simp [restElems, Doc.tight]

theorem RestO.ugly {r ds s} (h : RestO r ds s) : pUgly s = restMembers ds ++ pUgly r := by
  induction h with
  | nil hw => rw [pUgly_ws hw, pUgly_struct (by decide)]; rfl
  | cons hw hw' hw1 hw2 hk hv _ ih =>
    rw [pUgly_ws hw, pUgly_struct (by decide), pUgly_ws hw', pUgly_str hk, pUgly_ws hw1, pUgly_struct (by decide), pUgly_ws hw2, pUgly_value hv, ih]
    simp [restMembers, Doc.tight]

/-- At the depth limit the rest of the text is copied without whitespace. -/
theorem obj_limit {any : PrettyFn} {json : Bytes} {k : Nat} {opn cls : UInt8} {a : PArgs} {tabs max : Int} {buf : Bytes} {i : Nat} {nl : Int} {res}
    {v r : Bytes} {d : Doc} (hv : Denotes v d) (hA : At json i (v ++ r))
    (h : prettyObj any json k opn cls a tabs max MAX_DEPTH buf i nl = .ok res) : res = (buf ++ (d.tight ++ pUgly r), json.length, nl, true) := by
  cases k with
  | zero => simp [prettyObj, outOfFuel] at h
  | succ k =>
    unfold prettyObj at h
    rw [if_pos rfl, hA.sliceFrom] at h
    simp only [ok_bind, ugly_eq, pUgly_value hv] at h
    cases h; rfl

theorem objLoop_stop {any : PrettyFn} {json : Bytes} {opn cls : UInt8} {a : PArgs} {tabs max : Int} {depth : Nat} {nl : Int} {buf : Bytes}
    {pairs : List Pair} {n fuel i : Nat} {res} (hi : i = json.length)
    (h : prettyObjLoop any json opn cls a tabs max depth fuel i nl buf pairs n = .ok res) : res = (buf, json.length, nl, decide (opn ≠ c! '{')) := by
  cases fuel with
  | zero => simp [prettyObjLoop, outOfFuel] at h
  | succ fuel =>
    unfold prettyObjLoop at h
    rw [if_neg (by omega)] at h
    cases h; rw [hi]

/-! ### One line -/

/-- What printing on one line gives, when the printer gives up. -/
def CutOn (json : Bytes) (buf : Bytes) (p : Option Bytes) (res : Bytes × Nat × Int × Bool) : Prop :=
  match p with
  | some p => res.1 = buf ++ p ∧ res.2.1 = json.length ∧ res.2.2.2 = true
  | none => res.2.2.2 = false

/-- `extend_pretty_any` prints deep values on one line. -/
def AnyCutLines (json : Bytes) (any : PrettyFn) : Prop :=
  ∀ a tabs max depth buf i nl g v r d res, a.pretty = false → a.width > 0 → max ≠ -1 → depth < MAX_DEPTH → MAX_DEPTH ≤ depth + d.height →
    (∀ c ∈ g, c ≤ c! ' ' ∨ c = c! ',' ∨ c = c! ':') → Denotes v d → At json i (g ++ (v ++ r)) →
    any a tabs max depth buf i nl = .ok res → CutOn json buf (d.cutLine (MAX_DEPTH - 1 - depth) (pUgly r)) res

/-- One element of an array on one line, the last one if the printer gives up. -/
theorem cutLineItem {json : Bytes} {any : PrettyFn} (hcut : AnyCutLines json any) (hany : AnyLines json any) {a : PArgs} {tabs max : Int} {depth : Nat}
    (hp : a.pretty = false) (hw : a.width > 0) (hm : max ≠ -1) (hlim : depth < MAX_DEPTH) {r v s g : Bytes} {d : Doc} {ds : List Doc}
    (hg : ∀ c ∈ g, c ≤ c! ' ' ∨ c = c! ',' ∨ c = c! ':') (hv : Denotes v d) (hs : RestA r ds s)
    {fuel i : Nat} {nl : Int} {buf : Bytes} {pairs : List Pair} {n : Nat} {res : Bytes × Nat × Int × Bool}
    (hA : At json i (g ++ (v ++ s))) {c : UInt8} {q : Bytes} (hA' : At json i (c :: q)) (h1 : ¬ c ≤ c! ' ') (h2 : c ≠ c! ']')
    (rec : ∀ {fuel i : Nat} {nl : Int} {buf : Bytes} {pairs : List Pair} {n : Nat}, MAX_DEPTH ≤ depth + elemHeight ds → At json i s → 0 < n →
      prettyObjLoop any json (c! '[') (c! ']') a tabs max depth fuel i nl buf pairs n = .ok res →
      CutOn json buf ((cutLineElems (MAX_DEPTH - 1 - depth) (pUgly r) ds).map fun p => b!", " ++ p) res)
    (hd : MAX_DEPTH ≤ depth + elemHeight (d :: ds))
    (h : prettyObjLoop any json (c! '[') (c! ']') a tabs max depth fuel i nl buf pairs n = .ok res) :
    CutOn json (buf ++ if n > 0 then b!", " else []) (cutLineElems (MAX_DEPTH - 1 - depth) (pUgly r) (d :: ds)) res := by
  obtain ⟨r3, fuel2, e3, h3⟩ := lineItem hp hw hA' h1 h2 h
  rw [cutLineElems]
  by_cases hh : d.height ≤ MAX_DEPTH - 1 - depth
  · rw [if_pos hh]
    have hl := hany a (tabs + 1) max depth _ i nl g v s d r3 hp hw hm (by omega) hg hv hs.follow hA e3
    unfold OnLine at hl
    cases hd' : d.line with
    | none =>
      rw [hd'] at hl
      simp only at hl
      rcases h3 with ⟨_, _, h3⟩ | ⟨h3, _⟩
      · simpa [CutOn] using h3
      · rcases h3 with h3 | h3
        · exact absurd h3 hm
        · rw [hl] at h3; cases h3
    | some p =>
      rw [hd'] at hl
      obtain ⟨h4, h5, h6⟩ := hl
      rcases h3 with ⟨_, h3, _⟩ | ⟨_, h3⟩
      · rw [h6] at h3; cases h3
      · have := rec (by simp only [elemHeight] at hd; omega) h5 (Nat.succ_pos n) h3
        rw [h4] at this
        unfold CutOn at this ⊢
        cases hr : cutLineElems (MAX_DEPTH - 1 - depth) (pUgly r) ds with
        | none => rw [hr] at this; simpa using this
        | some q => rw [hr] at this; simpa using this
  · rw [if_neg hh]
    have hl := hcut a (tabs + 1) max depth _ i nl g v s d r3 hp hw hm hlim (by omega) hg hv hA e3
    rw [hs.ugly] at hl
    unfold CutOn at hl ⊢
    cases hd' : d.cutLine (MAX_DEPTH - 1 - depth) (restElems ds ++ pUgly r) with
    | none =>
      rw [hd'] at hl
      simp only at hl
      rcases h3 with ⟨_, _, h3⟩ | ⟨h3, _⟩
      · simpa using h3
      · rcases h3 with h3 | h3
        · exact absurd h3 hm
        · rw [hl] at h3; cases h3
    | some p =>
      rw [hd'] at hl
      obtain ⟨h4, h5, h6⟩ := hl
      rcases h3 with ⟨_, h3, _⟩ | ⟨_, h3⟩
      · rw [h6] at h3; cases h3
      · have := objLoop_stop h5 h3
        subst this
        exact ⟨h4, rfl, by simp⟩

theorem arrCutLine {json : Bytes} {any : PrettyFn} (hcut : AnyCutLines json any) (hany : AnyLines json any) {a : PArgs} {tabs max : Int} {depth : Nat} {r : Bytes}
    (hp : a.pretty = false) (hw : a.width > 0) (hm : max ≠ -1) (hlim : depth < MAX_DEPTH) {res : Bytes × Nat × Int × Bool} {ds : List Doc} {s : Bytes} (hs : RestA r ds s) :
    ∀ {fuel i : Nat} {nl : Int} {buf : Bytes} {pairs : List Pair} {n : Nat},
    MAX_DEPTH ≤ depth + elemHeight ds → At json i s → 0 < n →
    prettyObjLoop any json (c! '[') (c! ']') a tabs max depth fuel i nl buf pairs n = .ok res →
    CutOn json buf ((cutLineElems (MAX_DEPTH - 1 - depth) (pUgly r) ds).map fun p => b!", " ++ p) res := by
  induction hs with
  | @nil w hws =>
    intro fuel i nl buf pairs n hd
    simp only [elemHeight] at hd
    omega
  | @cons w w' v s d ds hws hws' hv hs ih =>
    intro fuel i nl buf pairs n hd hA hn h
    obtain ⟨fuel', i', hA', h'⟩ := objLoop_ws hws hA h
    have := cutLineItem hcut hany hp hw hm hlim (gap_comma hws') hv hs hA' hA' (by decide) (by decide) (fun h1 h2 h3 h4 => ih h1 h2 h3 h4) hd h'
    rw [if_pos hn] at this
    unfold CutOn at this ⊢
    cases hr : cutLineElems (MAX_DEPTH - 1 - depth) (pUgly r) (d :: ds) with
    | none => rw [hr] at this; simpa using this
    | some q => rw [hr] at this; simpa using this

theorem arrCutLineBody {json : Bytes} {any : PrettyFn} (hcut : AnyCutLines json any) (hany : AnyLines json any) {a : PArgs} {tabs max : Int} {depth : Nat} {v r buf : Bytes}
    {ds : List Doc} (hp : a.pretty = false) (hw : a.width > 0) (hm : max ≠ -1) (hlim : depth < MAX_DEPTH) (hv : Denotes v (.arr ds)) {i fuel : Nat} {nl : Int} {res}
    (hd : MAX_DEPTH ≤ depth + elemHeight ds) (hA : At json i (v ++ r))
    (h : prettyObjLoop any json (c! '[') (c! ']') a tabs max depth fuel (i + 1) nl (buf ++ [c! '[']) [] 0 = .ok res) :
    CutOn json buf ((cutLineElems (MAX_DEPTH - 1 - depth) (pUgly r) ds).map fun p => c! '[' :: p) res := by
  cases hv with
  | @arrEmpty w hws => simp only [elemHeight] at hd; omega
  | @arr es hne hwf hde =>
    cases es with
    | nil => exact absurd rfl hne
    | cons e es =>
      obtain ⟨s, hs, hs'⟩ := restA_of_elems (r := r) hwf hde
      have hA' := hA.cons
      simp only [List.append_eq, List.append_assoc, List.cons_append, List.nil_append] at hA'
      rw [hs'] at hA'
      obtain ⟨fuel', i', hA1, h1⟩ := objLoop_ws (hwf e (by simp)).1 hA' h
      have hv := hde e (by simp)
      obtain ⟨c, q, hcq, hsv⟩ := Gjson.IsValue.cons (value_of_denotes hv)
      have hA2 := hA1
      rw [hcq] at hA2
      have := cutLineItem (g := []) hcut hany hp hw hm hlim (by simp) hv hs hA1 hA2 (by unfold StartsValue IsDigit at hsv; grind) (by unfold StartsValue IsDigit at hsv; grind)
        (fun h1 h2 h3 h4 => arrCutLine hcut hany hp hw hm hlim hs h1 h2 h3 h4) hd h1
      rw [if_neg (by decide), List.append_nil] at this
      simp only [List.map_cons]
      unfold CutOn at this ⊢
      cases hr : cutLineElems (MAX_DEPTH - 1 - depth) (pUgly r) (e.2 :: es.map Prod.snd) with
      | none => rw [hr] at this; simpa using this
      | some q => rw [hr] at this; simpa using this

theorem prettyObj_cutLine {json : Bytes} {any : PrettyFn} (hcut : AnyCutLines json any) (hany : AnyLines json any) {v r : Bytes} {ds : List Doc} (hv : Denotes v (.arr ds))
    {i : Nat} (hA : At json i (v ++ r)) {depth : Nat} {buf : Bytes} {k : Nat} {a : PArgs} {tabs max : Int} {nl : Int} {res}
    (hp : a.pretty = false) (hw : a.width > 0) (hm : max ≠ -1) (hlim : depth < MAX_DEPTH) (hd : MAX_DEPTH ≤ depth + elemHeight ds)
    (h : prettyObj any json k (c! '[') (c! ']') a tabs max depth buf i nl = .ok res) :
    CutOn json buf ((Doc.arr ds).cutLine (MAX_DEPTH - 1 - depth + 1) (pUgly r)) res := by
  cases k with
  | zero => simp [prettyObj, outOfFuel] at h
  | succ k =>
    unfold prettyObj at h
    rw [if_neg (by omega)] at h
    simp only at h
    rw [if_pos hw, if_neg (by simp [hp]), if_neg (by simp)] at h
    rw [Doc.cutLine]
    exact arrCutLineBody hcut hany hp hw hm hlim hv hd hA h

theorem prettyAny_cutLines (json : Bytes) : ∀ n, AnyCutLines json (prettyAny json n)
  | 0 => by
    intro a tabs max depth buf i nl g v r d res _ _ _ _ _ _ _ _ h
    simp [prettyAny, outOfFuel] at h
  | n + 1 => by
    intro a tabs max depth buf i nl g v r d res hp hw hm hlim hd hg hv hA h
    unfold prettyAny at h
    obtain ⟨n', i', hA', h'⟩ := anyLoop_gap hg hA h
    have hc := anyLoop_cont hv hA' h'
    cases d with
    | leaf t => simp only [Doc.height] at hd; omega
    | arr ds =>
      simp only at hc
      by_cases he : depth + 1 = MAX_DEPTH
      · rw [he] at hc
        have := obj_limit hv hA' hc
        subst this
        rw [show MAX_DEPTH - 1 - depth = 0 by omega]
        exact ⟨rfl, rfl, rfl⟩
      · have := prettyObj_cutLine (prettyAny_cutLines json n) (prettyAny_lines json n) hv hA' hp hw hm (by omega) (by simp only [Doc.height] at hd; omega) hc
        rwa [show MAX_DEPTH - 1 - (depth + 1) + 1 = MAX_DEPTH - 1 - depth by omega] at this
    | obj ds =>
      simp only at hc
      by_cases he : depth + 1 = MAX_DEPTH
      · rw [he] at hc
        have := obj_limit hv hA' hc
        subst this
        rw [show MAX_DEPTH - 1 - depth = 0 by omega]
        exact ⟨rfl, rfl, rfl⟩
      · unfold prettyObj at hc
        rw [if_neg he] at hc
        simp only at hc
        rw [if_pos hw, if_neg (by simp [hp]), if_pos ⟨hm, trivial⟩] at hc
        cases hc
        rw [show MAX_DEPTH - 1 - depth = MAX_DEPTH - 1 - (depth + 1) + 1 by omega]
        rfl

/-! ### Several lines -/

/-- `extend_pretty_any` lays out deep values. -/
def AnyCuts (json : Bytes) (any : PrettyFn) : Prop :=
  ∀ a (n : Nat) depth buf i nl g v r d res (col : Nat), a.pretty = true → depth < MAX_DEPTH → MAX_DEPTH ≤ depth + d.height →
    (a.width > 0 → (buf.length : Int) - nl = col) → (∀ c ∈ g, c ≤ c! ' ' ∨ c = c! ',' ∨ c = c! ':') → Denotes v d →
    At json i (g ++ (v ++ r)) → any a n (-1) depth buf i nl = .ok res →
    res.1 = buf ++ d.cut (style a) a.sortKeys n col (MAX_DEPTH - 1 - depth) (pUgly r) ∧ res.2.1 = json.length

/-- The element of an array where the printer gives up. -/
theorem cutItem {json : Bytes} {any : PrettyFn} (hcut : AnyCuts json any) {a : PArgs} {n depth : Nat} (hp : a.pretty = true)
    {v s g : Bytes} {d : Doc} (hlim : depth < MAX_DEPTH) (hd : MAX_DEPTH ≤ depth + d.height) (hg : ∀ c ∈ g, c ≤ c! ' ' ∨ c = c! ',' ∨ c = c! ':') (hv : Denotes v d)
    {fuel i : Nat} {nl : Int} {buf : Bytes} {pairs : List Pair} {k : Nat} {res : Bytes × Nat × Int × Bool}
    (h0 : k = 0 → ∃ b0, buf = b0 ++ [c! '[']) (hA : At json i (g ++ (v ++ s))) {c : UInt8} {q : Bytes} (hA' : At json i (c :: q))
    (h1 : ¬ c ≤ c! ' ') (h2 : c ≠ c! ']')
    (h : prettyObjLoop any json (c! '[') (c! ']') a n (-1) depth fuel i nl buf pairs k = .ok res) :
    res.1 = buf ++ ((if k > 0 then b!",\n" else b!"\n") ++ ((style a).pad (n + 1) ++
        d.cut (style a) a.sortKeys (n + 1) (((style a).pad (n + 1)).length + if k > 0 then 0 else 1) (MAX_DEPTH - 1 - depth) (pUgly s))) ∧
      res.2.1 = json.length := by
  obtain ⟨nl1, b1, b2, i2, nl2, kend, b3, i3, nl3, ok3, fuel2, e1, e2, e3, h3⟩ := objLoop_item hA' h1 h2 (.inl rfl) h
  obtain ⟨hb1, hind, hcol⟩ := layLine (n := n) hp h0 (by decide) e1
  rw [hind] at e2
  unfold prettyKey at e2
  rw [if_neg (by decide)] at e2
  cases e2
  rcases h3 with ⟨hm, _, _⟩ | ⟨_, h3⟩
  · exact absurd rfl hm
  obtain ⟨h4, h5⟩ := hcut a (n + 1) depth _ i nl1 g v s d _ (((style a).pad (n + 1)).length + if k > 0 then 0 else 1) hp hlim hd (by
    intro hw
    have := hcol hw
    simp only [and_true] at this
    rw [List.length_append]
    split at this
    · rw [if_pos (by assumption)]; omega
    · rw [if_neg (by assumption)]; omega) hg hv hA e3
  have := objLoop_stop h5 h3
  subst this
  simp only at h4 ⊢
  rw [h4, hb1]
  simp

/-- One element of an array, the last one if the printer gives up. -/
theorem cutElem_step {json : Bytes} {any : PrettyFn} (hcut : AnyCuts json any) (hany : AnyLays json any) {a : PArgs} {n depth : Nat} (hp : a.pretty = true)
    (hlim : depth < MAX_DEPTH) {r v s g : Bytes} {d : Doc} {ds : List Doc}
    (hg : ∀ c ∈ g, c ≤ c! ' ' ∨ c = c! ',' ∨ c = c! ':') (hv : Denotes v d) (hs : RestA r ds s)
    {fuel i : Nat} {nl : Int} {buf : Bytes} {pairs : List Pair} {k : Nat} {res : Bytes × Nat × Int × Bool}
    (h0 : k = 0 → ∃ b0, buf = b0 ++ [c! '[']) (hA : At json i (g ++ (v ++ s))) {c : UInt8} {q : Bytes} (hA' : At json i (c :: q))
    (h1 : ¬ c ≤ c! ' ') (h2 : c ≠ c! ']')
    (rec : ∀ {fuel i : Nat} {nl : Int} {buf : Bytes} {pairs : List Pair} {k : Nat}, MAX_DEPTH ≤ depth + elemHeight ds → At json i s → 0 < k →
      prettyObjLoop any json (c! '[') (c! ']') a n (-1) depth fuel i nl buf pairs k = .ok res →
      res.1 = buf ++ c! ',' :: cutElems (style a) a.sortKeys n ((style a).pad (n + 1)).length (MAX_DEPTH - 1 - depth) (pUgly r) ds ∧ res.2.1 = json.length)
    (hd : MAX_DEPTH ≤ depth + elemHeight (d :: ds))
    (h : prettyObjLoop any json (c! '[') (c! ']') a n (-1) depth fuel i nl buf pairs k = .ok res) :
    res.1 = buf ++ ((if k > 0 then b!"," else []) ++
      cutElems (style a) a.sortKeys n (((style a).pad (n + 1)).length + if k > 0 then 0 else 1) (MAX_DEPTH - 1 - depth) (pUgly r) (d :: ds)) ∧
      res.2.1 = json.length := by
  have hsep : (if k > 0 then b!",\n" else b!"\n") = (if k > 0 then b!"," else []) ++ [c! '\n'] := by split <;> rfl
  rw [cutElems]
  by_cases hh : d.height ≤ MAX_DEPTH - 1 - depth
  · rw [if_pos hh]
    obtain ⟨fuel2, i2, nl2, hA2, h3⟩ := layItem hany hp (by omega) hg hv hs.follow h0 hA hA' h1 h2 h
    obtain ⟨h4, h5⟩ := rec (by simp only [elemHeight] at hd; omega) hA2 (Nat.succ_pos k) h3
    refine ⟨?_, h5⟩
    rw [h4, hsep]
    simp [norm]
  · rw [if_neg hh]
    obtain ⟨h4, h5⟩ := cutItem hcut hp hlim (by omega) hg hv h0 hA hA' h1 h2 h
    refine ⟨?_, h5⟩
    rw [h4, hsep, hs.ugly]
    simp

theorem arrCuts {json : Bytes} {any : PrettyFn} (hcut : AnyCuts json any) (hany : AnyLays json any) {a : PArgs} {n depth : Nat} {r : Bytes}
    (hp : a.pretty = true) (hlim : depth < MAX_DEPTH) {res : Bytes × Nat × Int × Bool} {ds : List Doc} {s : Bytes} (hs : RestA r ds s) :
    ∀ {fuel i : Nat} {nl : Int} {buf : Bytes} {pairs : List Pair} {k : Nat}, MAX_DEPTH ≤ depth + elemHeight ds → At json i s → 0 < k →
    prettyObjLoop any json (c! '[') (c! ']') a n (-1) depth fuel i nl buf pairs k = .ok res →
    res.1 = buf ++ c! ',' :: cutElems (style a) a.sortKeys n ((style a).pad (n + 1)).length (MAX_DEPTH - 1 - depth) (pUgly r) ds ∧ res.2.1 = json.length := by
  induction hs with
  | @nil w hws =>
    intro fuel i nl buf pairs k hd
    simp only [elemHeight] at hd
    omega
  | @cons w w' v s d ds hws hws' hv hs ih =>
    intro fuel i nl buf pairs k hd hA hk h
    obtain ⟨fuel', i', hA', h'⟩ := objLoop_ws hws hA h
    have := cutElem_step hcut hany hp hlim (gap_comma hws') hv hs (by omega) hA' hA' (by decide) (by decide) (fun h1 h2 h3 h4 => ih h1 h2 h3 h4) hd h'
    rw [if_pos hk, if_pos hk] at this
    simpa using this

theorem arrCutBody {json : Bytes} {any : PrettyFn} (hcut : AnyCuts json any) (hany : AnyLays json any) {a : PArgs} {n depth : Nat} {v r buf : Bytes}
    {ds : List Doc} (hp : a.pretty = true) (hlim : depth < MAX_DEPTH) (hv : Denotes v (.arr ds)) {i fuel : Nat} {nl : Int} {res}
    (hd : MAX_DEPTH ≤ depth + elemHeight ds) (hA : At json i (v ++ r))
    (h : prettyObjLoop any json (c! '[') (c! ']') a n (-1) depth fuel (i + 1) nl (buf ++ [c! '[']) [] 0 = .ok res) :
    res.1 = buf ++ c! '[' :: cutElems (style a) a.sortKeys n (((style a).pad (n + 1)).length + 1) (MAX_DEPTH - 1 - depth) (pUgly r) ds ∧ res.2.1 = json.length := by
  cases hv with
  | @arrEmpty w hws => simp only [elemHeight] at hd; omega
  | @arr es hne hwf hde =>
    cases es with
    | nil => exact absurd rfl hne
    | cons e es =>
      obtain ⟨s, hs, hs'⟩ := restA_of_elems (r := r) hwf hde
      have hA' := hA.cons
      simp only [List.append_eq, List.append_assoc, List.cons_append, List.nil_append] at hA'
      rw [hs'] at hA'
      obtain ⟨fuel', i', hA1, h1⟩ := objLoop_ws (hwf e (by simp)).1 hA' h
      have hv := hde e (by simp)
      obtain ⟨c, q, hcq, hsv⟩ := Gjson.IsValue.cons (value_of_denotes hv)
      have hA2 := hA1
      rw [hcq] at hA2
      have := cutElem_step (g := []) hcut hany hp hlim (by simp) hv hs (fun _ => ⟨buf, rfl⟩) hA1 hA2 (by unfold StartsValue IsDigit at hsv; grind)
        (by unfold StartsValue IsDigit at hsv; grind) (fun h1 h2 h3 h4 => arrCuts hcut hany hp hlim hs h1 h2 h3 h4) hd h1
      rw [if_neg (by decide), if_neg (by decide)] at this
      simpa using this

theorem prettyObj_cuts_arr {json : Bytes} {any : PrettyFn} (hcut : AnyCuts json any) (hany : AnyLays json any) (hcutl : AnyCutLines json any) (hline : AnyLines json any)
    {v r : Bytes} {ds : List Doc}
    (hv : Denotes v (.arr ds)) {i : Nat} (hA : At json i (v ++ r)) {depth : Nat} {buf : Bytes} {k : Nat} {a : PArgs} {n : Nat} {nl : Int} {res}
    (hp : a.pretty = true) (hlim : depth < MAX_DEPTH) (hd : MAX_DEPTH ≤ depth + elemHeight ds) {col : Nat} (hcol : a.width > 0 → (buf.length : Int) - nl = col)
    (h : prettyObj any json k (c! '[') (c! ']') a n (-1) depth buf i nl = .ok res) :
    res.1 = buf ++ (Doc.arr ds).cut (style a) a.sortKeys n col (MAX_DEPTH - 1 - depth + 1) (pUgly r) ∧ res.2.1 = json.length := by
  cases k with
  | zero => simp [prettyObj, outOfFuel] at h
  | succ k =>
    unfold prettyObj at h
    rw [if_neg (by omega)] at h
    simp only at h
    have body := fun hh => arrCutBody hcut hany hp hlim hv (buf := buf) (nl := nl) (fuel := json.length + 1) (n := n) (depth := depth) (res := res) hd hA hh
    rw [Doc.cut]
    by_cases hw : a.width > 0
    · rw [if_pos hw, if_pos ⟨hp, trivial, trivial⟩, hcol hw] at h
      split at h
      · rename_i hmax
        obtain ⟨⟨b1, i1, nl1, ok1⟩, h1, h⟩ := bind_eq_ok.1 h
        have hl := prettyObj_cutLine (a := { a with pretty := false, indent := [] }) (max := a.width - col) hcutl hline hv hA rfl hw (by omega) hlim hd h1
        simp only at h
        cases hd : (Doc.arr ds).cutLine (MAX_DEPTH - 1 - depth + 1) (pUgly r) with
        | none =>
          rw [hd] at hl
          simp only [CutOn] at hl
          rw [if_neg (by simp [hl])] at h
          exact body h
        | some p =>
          rw [hd] at hl
          obtain ⟨rfl, h2, h3⟩ := hl
          simp only at h2 h3 ⊢
          by_cases hfit : (p.length : Int) ≤ a.width - col
          · rw [if_pos ⟨h3, by simp; omega⟩] at h
            rw [if_pos ⟨hmax, hfit⟩]
            cases h
            exact ⟨rfl, h2⟩
          · rw [if_neg (fun e => hfit (by have := e.2; simp at this; omega))] at h
            rw [if_neg (fun e => hfit e.2)]
            exact body h
      · rename_i hmax
        have hb := body h
        split
        · rw [if_neg (fun e => hmax e.1)]; exact hb
        · exact hb
    · rw [if_neg hw] at h
      have hb := body h
      split
      · rw [if_neg (fun e => by have := e.1; simp only [style] at this; omega)]; exact hb
      · exact hb

/-! ### Objects -/

/-- The member of an object where the printer gives up. -/
theorem cutMember {json : Bytes} {any : PrettyFn} (hcut : AnyCuts json any) {a : PArgs} {n depth : Nat}
    (hp : a.pretty = true) {k w1 w2 v s : Bytes} {d : Doc} (hk : StrLit k) (hw1 : Ws w1) (hw2 : Ws w2) (hv : Denotes v d)
    (hlim : depth < MAX_DEPTH) (hd : MAX_DEPTH ≤ depth + d.height)
    {fuel i : Nat} {nl : Int} {buf : Bytes} {pairs : List Pair} {m : Nat} {res : Bytes × Nat × Int × Bool}
    (h0 : m = 0 → ∃ b0, buf = b0 ++ [c! '{'])
    (hA : At json i (k ++ (w1 ++ c! ':' :: (w2 ++ (v ++ s)))))
    (h : prettyObjLoop any json (c! '{') (c! '}') a n (-1) depth fuel i nl buf pairs m = .ok res) :
    res.1 = buf ++ ((if m > 0 then b!",\n" else b!"\n") ++ ((style a).pad (n + 1) ++ (k ++ (b!": " ++
        d.cut (style a) a.sortKeys (n + 1) (((style a).pad (n + 1)).length + k.length + 3) (MAX_DEPTH - 1 - depth) (pUgly s))))) ∧
      res.2.1 = json.length := by
  have hk' := hk
  obtain ⟨body, hbody, ek⟩ := hk'
  have hA0 : At json i (c! '"' :: ((body ++ [c! '"']) ++ (w1 ++ c! ':' :: (w2 ++ (v ++ s))))) := by rw [ek] at hA; simpa using hA
  obtain ⟨nl1, b1, b2, i2, nl2, kend, b3, i3, nl3, ok3, fuel2, e1, e2, e3, h2⟩ :=
    objLoop_item hA0 (by decide) (by decide) (.inr rfl) h
  obtain ⟨hb1, hind, hcol⟩ := layLine (n := n) hp h0 (by decide) e1
  rw [hind] at e2
  obtain ⟨e2', hslice, hklen⟩ := prettyKey_member (nl := nl1) (buf := b1 ++ (style a).pad (n + 1)) hk hA hp
  rw [e2'] at e2
  cases e2
  rcases h2 with ⟨hm, _, _⟩ | ⟨_, h2⟩
  · exact absurd rfl hm
  obtain ⟨h4, h5⟩ := hcut a (n + 1) depth _ (i + k.length) nl1 (w1 ++ c! ':' :: w2) v s d _ (((style a).pad (n + 1)).length + k.length + 3) hp hlim hd (by
    intro hw
    have := hcol hw
    rw [if_neg (by simp)] at this
    simp only [List.length_append, List.length_cons, List.length_nil]
    omega) (gap_colon hw1 hw2) hv (by simpa using hA.append) e3
  have := objLoop_stop h5 h2
  subst this
  simp only at h4 ⊢
  rw [h4, hb1]
  simp

/-- The text of the members so far. -/
theorem LayState.snoc {json base buf : Bytes} {s : Style} {n : Nat} {b : Bool} {pairs pairs' : List Pair} {items : List Item} {k : Nat} {buf' : Bytes} {it : Item}
    (h : LayPre json base buf s n b pairs items k) (h' : LayState json base buf' s n b pairs' (items ++ [it])) :
    buf' = buf ++ ((if k > 0 then b!",\n" else b!"\n") ++ (s.pad (n + 1) ++ layMember s n it.kd)) := by
  have hp := (h'.piece it (by simp)).1
  rw [h'.text, ← hp]
  rcases h with ⟨rfl, rfl, rfl, rfl⟩ | ⟨hk, hs⟩
  · simp [joinP]
  · rw [hs.text, List.map_append, List.map_cons, List.map_nil, joinP_snoc _ (by simpa using hs.ne), if_pos hk]
    simp

/-- One member of an object, the last one if the printer gives up. -/
theorem cutMember_step {json : Bytes} {any : PrettyFn} (hcut : AnyCuts json any) (hany : AnyLays json any) {a : PArgs} {n depth : Nat} {base buf0 : Bytes} (hbase : base = buf0 ++ [c! '{'])
    (hp : a.pretty = true) {k w1 w2 v s r : Bytes} {d : Doc} {ds : List (Bytes × Doc)} (hk : StrLit k) (hw1 : Ws w1) (hw2 : Ws w2) (hv : Denotes v d) (hs : RestO r ds s)
    (hlim : depth < MAX_DEPTH)
    {fuel i : Nat} {nl : Int} {buf : Bytes} {pairs : List Pair} {items : List Item} {m : Nat} {res : Bytes × Nat × Int × Bool}
    (hst : LayPre json base buf (style a) n a.sortKeys pairs items m)
    (hA : At json i (k ++ (w1 ++ c! ':' :: (w2 ++ (v ++ s)))))
    (rec : ∀ {fuel i : Nat} {nl : Int} {buf : Bytes} {pairs : List Pair} {items : List Item} {m : Nat}, MAX_DEPTH ≤ depth + memHeight ds → At json i s → 0 < m →
      LayState json base buf (style a) n a.sortKeys pairs items →
      prettyObjLoop any json (c! '{') (c! '}') a n (-1) depth fuel i nl buf pairs m = .ok res →
      res.1 = buf ++ c! ',' :: cutMembers (style a) a.sortKeys n (MAX_DEPTH - 1 - depth) (pUgly r) ds ∧ res.2.1 = json.length)
    (hd : MAX_DEPTH ≤ depth + memHeight ((k, d) :: ds))
    (h : prettyObjLoop any json (c! '{') (c! '}') a n (-1) depth fuel i nl buf pairs m = .ok res) :
    res.1 = buf ++ ((if m > 0 then b!"," else []) ++ cutMembers (style a) a.sortKeys n (MAX_DEPTH - 1 - depth) (pUgly r) ((k, d) :: ds)) ∧ res.2.1 = json.length := by
  have hsep : (if m > 0 then b!",\n" else b!"\n") = (if m > 0 then b!"," else []) ++ [c! '\n'] := by split <;> rfl
  rw [cutMembers]
  by_cases hh : d.height ≤ MAX_DEPTH - 1 - depth
  · rw [if_pos hh]
    obtain ⟨fuel4, i4, nl4, buf4, pairs4, it, hit1, hit2, hA4, hst4, h4⟩ :=
      layMember_step hany hbase hp hk hw1 hw2 hv hs.follow (by omega) hst hA h
    obtain ⟨h5, h6⟩ := rec (by simp only [memHeight] at hd; omega) hA4 (Nat.succ_pos m) hst4 h4
    refine ⟨?_, h6⟩
    have hkd : it.kd = (k, norm a.sortKeys d) := by unfold Item.kd; rw [hit1, hit2]
    rw [h5, hst4.snoc hst, hsep, hkd]
    simp [norm, layMember]
  · rw [if_neg hh]
    obtain ⟨h4, h5⟩ := cutMember hcut hp hk hw1 hw2 hv hlim (by omega) (by
      intro hm
      rcases hst with ⟨_, _, hb, _⟩ | ⟨hn', _⟩
      · exact ⟨buf0, hb.trans hbase⟩
      · omega) hA h
    refine ⟨?_, h5⟩
    rw [h4, hsep, hs.ugly]
    simp

theorem objCuts {json : Bytes} {any : PrettyFn} (hcut : AnyCuts json any) (hany : AnyLays json any) {a : PArgs} {n depth : Nat} {r buf0 : Bytes}
    (hp : a.pretty = true) (hlim : depth < MAX_DEPTH) {res : Bytes × Nat × Int × Bool} {ds : List (Bytes × Doc)} {s : Bytes} (hs : RestO r ds s) :
    ∀ {fuel i : Nat} {nl : Int} {buf : Bytes} {pairs : List Pair} {items : List Item} {k : Nat},
    MAX_DEPTH ≤ depth + memHeight ds → At json i s →
    0 < k → LayState json (buf0 ++ [c! '{']) buf (style a) n a.sortKeys pairs items →
    prettyObjLoop any json (c! '{') (c! '}') a n (-1) depth fuel i nl buf pairs k = .ok res →
    res.1 = buf ++ c! ',' :: cutMembers (style a) a.sortKeys n (MAX_DEPTH - 1 - depth) (pUgly r) ds ∧ res.2.1 = json.length := by
  induction hs with
  | @nil w hw =>
    intro fuel i nl buf pairs items k hd
    simp only [memHeight] at hd
    omega
  | @cons w w' w1 w2 k v s d ds hw hw' hw1 hw2 hk hv hs ih =>
    intro fuel i nl buf pairs items m hd hA hn hst h
    obtain ⟨fuel1, i1, hA1, h1⟩ := objLoop_ws hw hA h
    have hcomma : ∃ fuel2, prettyObjLoop any json (c! '{') (c! '}') a n (-1) depth fuel2 (i1 + 1) nl buf pairs m = .ok res := by
      cases fuel1 with
      | zero => simp [prettyObjLoop, outOfFuel] at h1
      | succ fuel1 =>
        unfold prettyObjLoop at h1
        rw [if_pos hA1.lt, hA1.idx] at h1
        simp only [ok_bind] at h1
        rw [if_neg (by decide), if_neg (by decide), if_neg (by decide)] at h1
        exact ⟨_, h1⟩
    obtain ⟨fuel2, h2⟩ := hcomma
    obtain ⟨fuel3, i3, hA3, h3⟩ := objLoop_ws hw' hA1.cons h2
    have := cutMember_step hcut hany rfl hp hk hw1 hw2 hv hs hlim (.inr ⟨hn, hst⟩) hA3 (fun h1 h2 h3 h4 h5 => ih h1 h2 h3 h4 h5) hd h3
    rw [if_pos hn] at this
    simpa using this

theorem objCutBody {json : Bytes} {any : PrettyFn} (hcut : AnyCuts json any) (hany : AnyLays json any) {a : PArgs} {n depth : Nat} {v r buf : Bytes}
    {ds : List (Bytes × Doc)} (hp : a.pretty = true) (hlim : depth < MAX_DEPTH) (hv : Denotes v (.obj ds)) {i fuel : Nat} {nl : Int} {res}
    (hd : MAX_DEPTH ≤ depth + memHeight ds) (hA : At json i (v ++ r))
    (h : prettyObjLoop any json (c! '{') (c! '}') a n (-1) depth fuel (i + 1) nl (buf ++ [c! '{']) [] 0 = .ok res) :
    res.1 = buf ++ c! '{' :: cutMembers (style a) a.sortKeys n (MAX_DEPTH - 1 - depth) (pUgly r) ds ∧ res.2.1 = json.length := by
  cases hv with
  | @objEmpty w hws => simp only [memHeight] at hd; omega
  | @obj es hne hwf hde =>
    cases es with
    | nil => exact absurd rfl hne
    | cons e es =>
      obtain ⟨s, hs, hs'⟩ := restO_of_members (r := r) hwf hde
      have hA' := hA.cons
      simp only [List.append_eq, List.append_assoc, List.cons_append, List.nil_append] at hA'
      rw [hs'] at hA'
      have hW := hwf e (by simp)
      obtain ⟨fuel', i', hA1, h1⟩ := objLoop_ws hW.1 hA' h
      have := cutMember_step hcut hany rfl hp hW.2.1 hW.2.2.1 hW.2.2.2.1 (hde e (by simp)) hs hlim (.inl ⟨rfl, rfl, rfl, rfl⟩) hA1
        (fun h1 h2 h3 h4 h5 => objCuts hcut hany hp hlim hs h1 h2 h3 h4 h5) hd h1
      rw [if_neg (by decide)] at this
      simpa using this

theorem prettyAny_cuts (json : Bytes) : ∀ n, AnyCuts json (prettyAny json n)
  | 0 => by
    intro a n depth buf i nl g v r d res col _ _ _ _ _ _ _ h
    simp [prettyAny, outOfFuel] at h
  | k + 1 => by
    intro a n depth buf i nl g v r d res col hp hlim hd hcol hg hv hA h
    unfold prettyAny at h
    obtain ⟨n', i', hA', h'⟩ := anyLoop_gap hg hA h
    have hc := anyLoop_cont hv hA' h'
    cases d with
    | leaf t => simp only [Doc.height] at hd; omega
    | arr ds =>
      simp only at hc
      by_cases he : depth + 1 = MAX_DEPTH
      · rw [he] at hc
        have := obj_limit hv hA' hc
        subst this
        rw [show MAX_DEPTH - 1 - depth = 0 by omega]
        exact ⟨rfl, rfl⟩
      · have := prettyObj_cuts_arr (prettyAny_cuts json k) (prettyAny_lays json k) (prettyAny_cutLines json k) (prettyAny_lines json k) hv hA' hp (by omega)
          (by simp only [Doc.height] at hd; omega) hcol hc
        rwa [show MAX_DEPTH - 1 - (depth + 1) + 1 = MAX_DEPTH - 1 - depth by omega] at this
    | obj ds =>
      simp only at hc
      by_cases he : depth + 1 = MAX_DEPTH
      · rw [he] at hc
        have := obj_limit hv hA' hc
        subst this
        rw [show MAX_DEPTH - 1 - depth = 0 by omega]
        exact ⟨rfl, rfl⟩
      · unfold prettyObj at hc
        rw [if_neg he] at hc
        simp only at hc
        have hb := fun hh => objCutBody (prettyAny_cuts json k) (prettyAny_lays json k) hp (by omega) hv (buf := buf) (nl := nl) (fuel := json.length + 1) (n := n) (depth := depth + 1) (res := res)
          (by simp only [Doc.height] at hd; omega) hA' hh
        rw [show MAX_DEPTH - 1 - depth = MAX_DEPTH - 1 - (depth + 1) + 1 by omega, Doc.cut]
        split at hc
        · rw [if_neg (by simp), if_neg (by simp)] at hc
          exact hb hc
        · exact hb hc

/-- `pretty` of a JSON text of any depth. -/
theorem prettyOptions_laid {t v : Bytes} {d : Doc} (hv : Denotes v d) (hp : Padded v t) (o : PrettyOptions) :
    prettyOptions t o = .ok (o.pfx ++ (d.laid ⟨o.width, o.pfx, o.indent⟩ o.sortKeys (MAX_DEPTH - 1) ++ [c! '\n'])) := by
  unfold Doc.laid
  by_cases hlim : d.height ≤ MAX_DEPTH - 1
  · rw [if_pos hlim]
    exact prettyOptions_layout hv hp (by unfold MAX_DEPTH at *; omega)
  rw [if_neg hlim]
  obtain ⟨out, h⟩ := prettyOptions_ok t o
  obtain ⟨w1, w2, hw1, hw2, rfl⟩ := hp
  rw [h]
  unfold prettyOptions at h
  simp only at h
  obtain ⟨⟨buf, j, nl, ok⟩, h1, h⟩ := bind_eq_ok.1 h
  have hpfx : (if o.pfx.length ≠ 0 then o.pfx else []) = o.pfx := by
    split
    · rfl
    · rename_i hx
      exact (List.length_eq_zero_iff.1 (by omega)).symm
  rw [hpfx] at h1
  obtain ⟨h2, _⟩ := prettyAny_cuts _ _ _ 0 0 _ 0 0 w1 v w2 d _ o.pfx.length rfl (by decide) (by omega) (by simp) (gap_ws hw1) hv (At.zero _) h1
  have hu : pUgly w2 = [] := by have := pUgly_ws hw2 []; rwa [List.append_nil, pUgly_nil] at this
  rw [hu] at h2
  simp only at h2
  simp only [style] at h2
  rw [h2] at h
  split at h
  · cases h; simp
  · rename_i hx
    exfalso
    apply hx
    have : 0 < (d.cut ⟨o.width, o.pfx, o.indent⟩ o.sortKeys 0 o.pfx.length (MAX_DEPTH - 1 - 0) []).length := by
      cases d with
      | leaf t => simp only [Doc.height] at hlim; omega
      | arr es =>
        rw [show MAX_DEPTH - 1 - 0 = 498 + 1 by rfl, Doc.cut]
        split
        · rename_i hx
          split
          · simp only [Doc.cutLine] at hx
            obtain ⟨q, _, rfl⟩ := Option.map_eq_some_iff.1 hx
            simp
          · simp
        · simp
      | obj es => rw [show MAX_DEPTH - 1 - 0 = 498 + 1 by rfl, Doc.cut]; simp
    simp only [List.length_append] at *
    omega

end Gjson
