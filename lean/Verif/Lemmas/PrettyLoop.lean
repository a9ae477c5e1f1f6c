import Verif.Lemmas.PrettyDoc
/-
The loops of `pretty` on JSON texts.
-/
namespace Gjson
open Spec

/-- Whitespace formatting in one of the two modes: normal printing, or the attempt to
print an array on one line. -/
structure FmtOk (a : PArgs) (max : Int) : Prop where
  pfx : Ws a.pfx
  indent : Ws a.indent
  mode : (max = -1 ∧ a.pretty = true) ∨ (max ≠ -1 ∧ a.pretty = false ∧ a.width > 0)

/-- A value for the document `d`, followed by `r`, has been printed: either just the
value, or (for a value nested deeper than `n`) all the rest of the text. -/
def Printed (json : Bytes) (b : Bool) (n : Nat) (buf : Bytes) (d : Doc) (r : Bytes) (buf' : Bytes) (j : Nat) : Prop :=
  (d.height ≤ n ∧ ∃ p, buf' = buf ++ p ∧ FragB p (norm b d).toks ∧ At json j r) ∨
  (n < d.height ∧ ∃ p, buf' = buf ++ p ∧ FragB p ((normLim b n d).toks ++ tokens r) ∧ j = json.length)

/-- `extend_pretty_any` prints every value. -/
def AnyPrints (json : Bytes) (any : PrettyFn) : Prop :=
  ∀ a tabs max depth buf i nl g v r d buf' j nl' ok, FmtOk a max → depth < MAX_DEPTH →
    (∀ c ∈ g, c ≤ c! ' ' ∨ c = c! ',' ∨ c = c! ':') → Denotes v d → After r → At json i (g ++ (v ++ r)) →
    any a tabs max depth buf i nl = .ok (buf', j, nl', ok) → (max = -1 ∨ ok = true) → Printed json a.sortKeys (MAX_DEPTH - 1 - depth) buf d r buf' j

theorem repeatBytes_ws {b : Bytes} (h : Ws b) : ∀ n, Ws (repeatBytes n b)
  | 0 => ws_nil
  | n + 1 => by
    intro c hc
    rcases List.mem_append.1 hc with hc | hc
    · exact h c hc
    · exact repeatBytes_ws h n c hc

theorem extendTabs_ws {a : PArgs} {max : Int} (h : FmtOk a max) (buf : Bytes) (tabs : Int) :
    ∃ w, Ws w ∧ extendTabs buf a.pfx a.indent tabs = buf ++ w := by
  unfold extendTabs
  split
  · refine ⟨a.pfx ++ repeatBytes tabs.toNat a.indent, ?_, by simp⟩
    intro c hc
    rcases List.mem_append.1 hc with hc | hc
    · exact h.pfx c hc
    · exact repeatBytes_ws h.indent _ c hc
  · exact ⟨_, repeatBytes_ws h.indent _, rfl⟩

theorem lastByte_snoc (b : Bytes) (c : UInt8) : lastByte (b ++ [c]) = .ok c := by
  unfold lastByte
  rw [if_neg (by simp)]
  unfold idx
  simp

theorem ws_nl : Ws [c! '\n'] := by intro c hc; simp at hc; subst hc; decide
theorem ws_sp : Ws [c! ' '] := by intro c hc; simp at hc; subst hc; decide

/-- The separator and line break before an element. -/
theorem sepLine {opn : UInt8} {a : PArgs} {nl nl1 : Int} {buf b1 : Bytes} {n : Nat}
    (h : prettyLine a nl (prettySep opn a buf n) = .ok (nl1, b1)) (h0 : n = 0 → ∃ b0, buf = b0 ++ [opn]) (ho : opn ≠ c! ' ') :
    ∃ w, Ws w ∧ b1 = buf ++ ((if n > 0 then [c! ','] else []) ++ w) ∧ (a.pretty = true → w = [c! '\n']) := by
  unfold prettyLine at h
  split at h
  · rename_i hp
    refine ⟨[c! '\n'], ws_nl, ?_, fun _ => rfl⟩
    unfold prettySep at h
    by_cases hn : n > 0
    · rw [if_pos hn] at h ⊢
      split at h
      · rw [lastByte_snoc] at h
        simp at h
        rw [← h.2]; simp [List.take_append, List.take_of_length_le]
      · rw [lastByte_snoc] at h
        simp at h
        rw [← h.2]; simp
    · rw [if_neg hn] at h ⊢
      obtain ⟨b0, rfl⟩ := h0 (by omega)
      rw [lastByte_snoc] at h
      simp [ho] at h
      rw [← h.2]; simp
  · rename_i hp
    cases h
    unfold prettySep
    by_cases hn : n > 0
    · rw [if_pos hn, if_pos hn]
      split
      · exact ⟨[c! ' '], ws_sp, by simp, fun h => absurd h hp⟩
      · exact ⟨[], ws_nil, by simp, fun h => absurd h hp⟩
    · rw [if_neg hn, if_neg hn]
      exact ⟨[], ws_nil, by simp, fun h => absurd h hp⟩

theorem prettyIndent_ws {a : PArgs} {max : Int} (h : FmtOk a max) (tabs : Int) (buf : Bytes) :
    ∃ w, Ws w ∧ prettyIndent a tabs buf = buf ++ w := by
  unfold prettyIndent
  split
  · exact extendTabs_ws h _ _
  · exact ⟨[], ws_nil, by simp⟩

theorem closeLine_ws {nl nl' : Int} {buf b : Bytes} {n : Nat} (h : closeLine nl buf n = .ok (nl', b)) :
    ∃ w, Ws w ∧ b = buf ++ w := by
  unfold closeLine at h
  split at h
  · obtain ⟨l, _, h⟩ := bind_eq_ok.1 h
    simp at h
    rw [← h.2]
    split
    · exact ⟨[], ws_nil, by simp⟩
    · exact ⟨_, ws_nl, rfl⟩
  · cases h; exact ⟨[], ws_nil, by simp⟩

/-- The closing bracket: whitespace and the bracket, after sorting. -/
theorem prettyClose_text {json : Bytes} {opn cls : UInt8} {a : PArgs} {max tabs : Int} {i : Nat} {nl : Int} {buf : Bytes} {pairs : List Pair}
    {n : Nat} {res : Bytes × Nat × Int × Bool} (hf : FmtOk a max)
    (h : prettyClose json opn cls a tabs i nl buf pairs n = .ok res) :
    ∃ b w, (a.pretty = true → closeSort json opn a buf pairs = .ok b) ∧ (a.pretty = false → b = buf) ∧ Ws w ∧ res.1 = b ++ (w ++ [cls]) ∧ res.2.1 = i + 1 := by
  unfold prettyClose at h
  split at h
  · obtain ⟨b, h1, h⟩ := bind_eq_ok.1 h
    obtain ⟨⟨nl', b2⟩, h2, h⟩ := bind_eq_ok.1 h
    obtain ⟨w, hw, rfl⟩ := closeLine_ws h2
    simp only at h
    obtain ⟨l, h3, h⟩ := bind_eq_ok.1 h
    cases h
    obtain ⟨w', hw', hx⟩ := extendTabs_ws hf (b ++ w) tabs
    by_cases hl : l = opn
    · exact ⟨b, w, fun _ => h1, fun hh => by simp_all, hw, by simp [hl], rfl⟩
    · refine ⟨b, w ++ w', fun _ => h1, fun hh => by simp_all, ?_, by simp [hl, hx], rfl⟩
      intro c hc
      rcases List.mem_append.1 hc with hc | hc
      · exact hw c hc
      · exact hw' c hc
  · cases h
    exact ⟨buf, [], fun hh => absurd hh (by assumption), fun _ => rfl, ws_nil, by simp, rfl⟩

/-- Whitespace is skipped by the loop. -/
theorem objLoop_ws {any : PrettyFn} {json : Bytes} {opn cls : UInt8} {a : PArgs} {tabs max : Int} {depth : Nat} {nl : Int} {buf : Bytes}
    {pairs : List Pair} {n : Nat} {res} {s : Bytes} : ∀ {w : Bytes} {fuel i : Nat}, Ws w → At json i (w ++ s) →
    prettyObjLoop any json opn cls a tabs max depth fuel i nl buf pairs n = .ok res →
    ∃ fuel' i', At json i' s ∧ prettyObjLoop any json opn cls a tabs max depth fuel' i' nl buf pairs n = .ok res
  | [], fuel, i, _, hA, h => ⟨fuel, i, hA, h⟩
  | c :: w, 0, i, _, _, h => by simp [prettyObjLoop, outOfFuel] at h
  | c :: w, fuel + 1, i, hw, hA, h => by
    unfold prettyObjLoop at h
    rw [if_pos (At.lt hA), At.idx hA] at h
    simp only [ok_bind] at h
    rw [if_pos (by have := hw c (by simp); unfold IsWs at this; grind)] at h
    exact objLoop_ws (w := w) (fun x hx => hw x (by simp [hx])) (At.cons hA) h

/-- At the end of the text the loop stops. -/
theorem objLoop_end {any : PrettyFn} {json : Bytes} {opn cls : UInt8} {a : PArgs} {tabs max : Int} {depth : Nat} {nl : Int} {buf : Bytes}
    {pairs : List Pair} {n fuel i : Nat} {res} (hi : json.length ≤ i)
    (h : prettyObjLoop any json opn cls a tabs max depth fuel i nl buf pairs n = .ok res) : res.1 = buf ∧ res.2.1 = i := by
  cases fuel with
  | zero => simp [prettyObjLoop, outOfFuel] at h
  | succ fuel =>
    unfold prettyObjLoop at h
    rw [if_neg (by omega)] at h
    cases h; exact ⟨rfl, rfl⟩

/-- What the loop does at the closing bracket. -/
theorem objLoop_close {any : PrettyFn} {json : Bytes} {opn cls : UInt8} {a : PArgs} {tabs max : Int} {depth : Nat} {nl : Int} {buf : Bytes}
    {pairs : List Pair} {n fuel i : Nat} {res} {s : Bytes} (hc : ¬ cls ≤ c! ' ') (hA : At json i (cls :: s))
    (h : prettyObjLoop any json opn cls a tabs max depth fuel i nl buf pairs n = .ok res) :
    prettyClose json opn cls a tabs i nl buf pairs n = .ok res := by
  cases fuel with
  | zero => simp [prettyObjLoop, outOfFuel] at h
  | succ fuel =>
    unfold prettyObjLoop at h
    rw [if_pos hA.lt, hA.idx] at h
    simp only [ok_bind] at h
    rw [if_neg hc, if_pos trivial] at h
    exact h

/-- One element or member. -/
theorem objLoop_item {any : PrettyFn} {json : Bytes} {opn cls : UInt8} {a : PArgs} {tabs max : Int} {depth : Nat} {nl : Int} {buf : Bytes}
    {pairs : List Pair} {n fuel i : Nat} {res} {c : UInt8} {s : Bytes} (hA : At json i (c :: s)) (h1 : ¬ c ≤ c! ' ') (h2 : c ≠ cls)
    (h3 : opn = c! '[' ∨ c = c! '"')
    (h : prettyObjLoop any json opn cls a tabs max depth fuel i nl buf pairs n = .ok res) :
    ∃ nl1 b1 b2 i2 nl2 kend b3 i3 nl3 ok fuel', prettyLine a nl (prettySep opn a buf n) = .ok (nl1, b1) ∧
      prettyKey json opn a (prettyIndent a tabs b1) i nl1 = .ok (b2, i2, nl2, kend) ∧
      any a (tabs + 1) max depth b2 i2 nl2 = .ok (b3, i3, nl3, ok) ∧
      ((max ≠ -1 ∧ ok = false ∧ res = (b3, i3, nl3, false)) ∨
       ((max = -1 ∨ ok = true) ∧
        prettyObjLoop any json opn cls a tabs max depth fuel' i3 nl3 b3 (prettyPairs opn a pairs i kend b1.length b3.length) (n + 1) = .ok res)) := by
  cases fuel with
  | zero => simp [prettyObjLoop, outOfFuel] at h
  | succ fuel =>
    unfold prettyObjLoop at h
    rw [if_pos hA.lt, hA.idx] at h
    simp only [ok_bind] at h
    rw [if_neg h1, if_neg h2, if_pos h3] at h
    obtain ⟨⟨nl1, b1⟩, e1, h⟩ := bind_eq_ok.1 h
    obtain ⟨⟨b2, i2, nl2, kend⟩, e2, h⟩ := bind_eq_ok.1 h
    obtain ⟨⟨b3, i3, nl3, ok⟩, e3, h⟩ := bind_eq_ok.1 h
    refine ⟨nl1, b1, b2, i2, nl2, kend, b3, i3, nl3, ok, fuel, e1, e2, e3, ?_⟩
    simp only at h
    split at h
    · rename_i hm
      cases h
      exact .inl ⟨hm.1, by simpa using hm.2, rfl⟩
    · rename_i hm
      split at h
      · cases h
      · rename_i hi
        rw [show i3 - 1 + 1 = i3 by omega] at h
        refine .inr ⟨?_, h⟩
        by_cases hx : max = -1
        · exact .inl hx
        · right; cases ok
          · exact absurd ⟨hx, rfl⟩ hm
          · rfl

/-! ### Arrays -/

theorem arrLoop {json : Bytes} {any : PrettyFn} (hany : AnyPrints json any) {a : PArgs} {tabs max : Int} {depth : Nat} {r buf0 : Bytes}
    (hf : FmtOk a max) (hr : Calm r) {ds : List Doc} {s : Bytes} (hs : RestA r ds s) :
    ∀ {fuel i : Nat} {nl : Int} {q : Bytes} {T : List Bytes} {pairs : List Pair} {n : Nat} {buf' : Bytes} {j : Nat} {nl' : Int} {ok : Bool},
    depth < MAX_DEPTH → At json i s → FragB q T → 0 < n →
    prettyObjLoop any json (c! '[') (c! ']') a tabs max depth fuel i nl (buf0 ++ q) pairs n = .ok (buf', j, nl', ok) →
    (max = -1 ∨ ok = true) →
    (elemHeight ds ≤ MAX_DEPTH - 1 - depth ∧ ∃ p, buf' = buf0 ++ p ∧ FragB p (T ++ (commaE (ds.map (norm a.sortKeys)) ++ [[c! ']']])) ∧ At json j r) ∨
    (MAX_DEPTH - 1 - depth < elemHeight ds ∧ ∃ p, buf' = buf0 ++ p ∧
      FragB p (T ++ (commaE (limDocs a.sortKeys (MAX_DEPTH - 1 - depth) ds) ++ [c! ']'] :: tokens r)) ∧ j = json.length) := by
  induction hs with
  | @nil w hw =>
    intro fuel i nl q T pairs n buf' j nl' ok _ hA hq _ h _
    obtain ⟨fuel', i', hA', h'⟩ := objLoop_ws hw hA h
    have h' := objLoop_close (by decide) hA' h'
    obtain ⟨b, w', h1, h2, hw', h3, h4⟩ := prettyClose_text hf h'
    have hb : b = buf0 ++ q := by
      cases hp : a.pretty
      · exact h2 hp
      · have := h1 hp
        unfold closeSort at this
        rw [if_neg (by simp)] at this
        cases this; rfl
    subst hb
    simp only at h3 h4
    left
    refine ⟨by simp [elemHeight], q ++ (w' ++ [c! ']']), by rw [h3]; simp, ?_, by rw [h4]; exact hA'.cons⟩
    have := ((hq.ws hw').sep (c := c! ']') (by decide)).b
    simpa [commaE] using this
  | @cons w w' v s d ds hw hw' hv hs ih =>
    intro fuel i nl q T pairs n buf' j nl' ok hlim hA hq hn h hok
    obtain ⟨fuel1, i1, hA1, h1⟩ := objLoop_ws hw hA h
    obtain ⟨nl1, b1, b2, i2, nl2, kend, b3, i3, nl3, ok3, fuel2, e1, e2, e3, h2⟩ :=
      objLoop_item hA1 (by decide) (by decide) (.inl rfl) h1
    obtain ⟨w1, hw1, rfl, _⟩ := sepLine e1 (by omega) (by decide)
    obtain ⟨w2, hw2, hind⟩ := prettyIndent_ws hf tabs (buf0 ++ q ++ ((if n > 0 then [c! ','] else []) ++ w1))
    unfold prettyKey at e2
    rw [if_neg (by decide)] at e2
    cases e2
    rcases h2 with ⟨hm, hf', hres⟩ | ⟨hok3, h2⟩
    · cases hres; rcases hok with hok | hok
      · exact absurd hok hm
      · cases hok
    rw [hind, if_pos hn] at e3
    have hpr := hany a (tabs + 1) max depth _ i1 nl1 (c! ',' :: w') v s d b3 i3 nl3 ok3 hf hlim
      (by
        intro c hc
        rcases List.mem_cons.1 hc with rfl | hc
        · simp
        · have := hw' c hc; unfold IsWs at this; left; grind)
      hv (hs.after hr) (by simpa using hA1) e3 hok3
    have hsep : Frag (q ++ [c! ','] ++ (w1 ++ w2)) (T ++ [[c! ',']]) := by
      have := (hq.sep (c := c! ',') (by decide)).append (Frag.ws (w := w1 ++ w2) (by
        intro c hc
        rcases List.mem_append.1 hc with hc | hc
        · exact hw1 c hc
        · exact hw2 c hc))
      simpa using this
    rcases hpr with ⟨hle, p, rfl, hp, hA3⟩ | ⟨hgt, p, rfl, hp, hj⟩
    · have hq3 := hsep.appendB hp
      have e : buf0 ++ q ++ ([c! ','] ++ w1) ++ w2 ++ p = buf0 ++ (q ++ [c! ','] ++ (w1 ++ w2) ++ p) := by simp
      rw [e] at h2
      rcases ih hlim hA3 hq3 (Nat.succ_pos n) h2 hok with ⟨hle', p', h5, h6, h7⟩ | ⟨hgt, p', h5, h6, h7⟩
      · exact .inl ⟨by simp only [elemHeight]; omega, p', h5, by simpa [commaE] using h6, h7⟩
      · refine .inr ⟨by simp only [elemHeight]; omega, p', h5, ?_, h7⟩
        rw [limDocs_fit hle]
        simpa [commaE] using h6
    · have := objLoop_end (by omega) h2
      simp only at this
      right
      refine ⟨by simp only [elemHeight]; omega, q ++ [c! ','] ++ (w1 ++ w2) ++ p, by rw [this.1]; simp, ?_, by rw [this.2, hj]⟩
      have := hsep.appendB hp
      rw [hs.tokens] at this
      rw [limDocs_deep hgt]
      simpa [commaE] using this

/-! ### Objects -/

/-- A member that has been printed. -/
structure Item where
  key : Bytes
  doc : Doc
  piece : Bytes
  pair : Pair

/-- The pieces with line breaks between them. -/
def joinP : List Bytes → Bytes
  | [] => []
  | [p] => p
  | p :: q :: r => p ++ [c! ',', c! '\n'] ++ joinP (q :: r)

theorem joinP_snoc (p : Bytes) : ∀ {ps : List Bytes}, ps ≠ [] → joinP (ps ++ [p]) = joinP ps ++ ([c! ',', c! '\n'] ++ p)
  | [], h => absurd rfl h
  | [q], _ => by simp [joinP]
  | q :: q' :: ps, _ => by
    have := joinP_snoc p (ps := q' :: ps) (by simp)
    simp only [List.cons_append, joinP, List.append_assoc] at this ⊢
    rw [this]

/-- Key and document of a member. -/
def Item.kd (it : Item) : Bytes × Doc := (it.key, it.doc)

theorem joinP_piece : ∀ {items : List Item}, items ≠ [] →
    (∀ it ∈ items, FragB it.piece (it.key :: [c! ':'] :: it.doc.toks)) →
    FragB (joinP (items.map Item.piece)) (memToks (items.map Item.kd))
  | [], h, _ => absurd rfl h
  | [it], _, h => by simpa [joinP, memToks, Item.kd] using h it (by simp)
  | it :: it' :: items, _, h => by
    have h1 := ((h it (by simp)).sep (c := c! ',') (by decide)).append (Frag.ws ws_nl)
    have h2 := joinP_piece (items := it' :: items) (by simp) (fun x hx => h x (by simp [hx]))
    have h3 := h1.appendB h2
    simpa [joinP, memToks, Item.kd] using h3

/-- Insertion of a member by key. -/
def insertItem (a : Item) : List Item → List Item
  | [] => [a]
  | b :: r => if rawKey a.key ≤ rawKey b.key then a :: b :: r else b :: insertItem a r

/-- Sorting of members by key. -/
def sortItems : List Item → List Item
  | [] => []
  | a :: r => insertItem a (sortItems r)

theorem insertItem_kd (a : Item) : ∀ l, (insertItem a l).map Item.kd = insertMember a.kd (l.map Item.kd)
  | [] => rfl
  | b :: l => by
    unfold insertItem
    simp only [List.map_cons, insertMember]
    by_cases h : rawKey a.key ≤ rawKey b.key
    · rw [if_pos h, if_pos (show rawKey a.kd.1 ≤ rawKey b.kd.1 from h)]; rfl
    · rw [if_neg h, if_neg (show ¬ rawKey a.kd.1 ≤ rawKey b.kd.1 from h), List.map_cons, insertItem_kd a l]

theorem sortItems_kd : ∀ l, (sortItems l).map Item.kd = sortMembers (l.map Item.kd)
  | [] => rfl
  | a :: l => by rw [sortItems, insertItem_kd, sortItems_kd l]; rfl

theorem insertItem_perm (a : Item) : ∀ l, (insertItem a l).Perm (a :: l)
  | [] => .refl _
  | b :: l => by
    unfold insertItem
    split
    · exact .refl _
    · exact ((insertItem_perm a l).cons b).trans (.swap _ _ _)

theorem sortItems_perm : ∀ l, (sortItems l).Perm l
  | [] => .refl _
  | a :: l => (insertItem_perm a _).trans ((sortItems_perm l).cons a)

/-- What the printer sorts. -/
def Item.keyed (it : Item) : Bytes × Pair := (rawKey it.key, it.pair)

theorem cmpBytes_le (a b : Bytes) : (cmpBytes a b ≠ .gt) ↔ a ≤ b := by
  rw [ne_eq, cmpBytes_gt]; exact Iff.rfl

theorem pairLe_keyed {a b : Item} (h : a.pair.vstart ≤ b.pair.vstart) : pairLe a.keyed b.keyed = decide (rawKey a.key ≤ rawKey b.key) := by
  unfold pairLe Item.keyed
  simp only
  have := cmpBytes_le (rawKey a.key) (rawKey b.key)
  cases hc : cmpBytes (rawKey a.key) (rawKey b.key) <;> simp only [hc] at this ⊢
  · simpa using this
  · have h2 : rawKey a.key ≤ rawKey b.key := this.1 (by simp)
    simp [h, h2]
  · have h2 : ¬ rawKey a.key ≤ rawKey b.key := fun h => this.2 h rfl
    simp [h2]

theorem insertPair_keyed (a : Item) : ∀ {l : List Item}, (∀ b ∈ l, a.pair.vstart ≤ b.pair.vstart) →
    insertPair a.keyed (l.map Item.keyed) = (insertItem a l).map Item.keyed
  | [], _ => rfl
  | b :: l, h => by
    simp only [List.map_cons, insertPair, pairLe_keyed (h b (by simp)), decide_eq_true_eq]
    unfold insertItem
    by_cases hk : rawKey a.key ≤ rawKey b.key
    · rw [if_pos hk, if_pos hk]; rfl
    · rw [if_neg hk, if_neg hk, insertPair_keyed a (fun x hx => h x (by simp [hx]))]; rfl

theorem sortByKey_keyed : ∀ {l : List Item}, l.Pairwise (fun a b => a.pair.vstart < b.pair.vstart) →
    sortByKey (l.map Item.keyed) = (sortItems l).map Item.keyed
  | [], _ => rfl
  | a :: l, h => by
    rw [List.pairwise_cons] at h
    rw [List.map_cons, sortByKey, sortByKey_keyed h.2, insertPair_keyed a]
    · rfl
    · intro b hb
      exact Nat.le_of_lt (h.1 b ((sortItems_perm l).mem_iff.1 hb))

/-- The recorded ranges of a printed member. -/
structure InBuf (json buf : Bytes) (it : Item) : Prop where
  key : pairKey json it.pair = .ok (rawKey it.key)
  low : it.pair.vstart ≤ it.pair.vend
  piece : ∃ pre suf, buf = pre ++ (it.piece ++ suf) ∧ pre.length = it.pair.vstart ∧ it.pair.vend = it.pair.vstart + it.piece.length

theorem InBuf.append {json buf : Bytes} {it : Item} (h : InBuf json buf it) (x : Bytes) : InBuf json (buf ++ x) it := by
  obtain ⟨pre, suf, rfl, h1, h2⟩ := h.piece
  exact ⟨h.key, h.low, pre, suf ++ x, by simp, h1, h2⟩

theorem InBuf.slice {json buf : Bytes} {it : Item} (h : InBuf json buf it) : slice buf it.pair.vstart it.pair.vend = .ok it.piece := by
  obtain ⟨pre, suf, rfl, h1, h2⟩ := h.piece
  have := At.slice (At.of_pre pre (it.piece ++ suf))
  rw [h1] at this
  rw [h2]; exact this

theorem joinPairs_items {json buf : Bytes} : ∀ {items : List Item}, (∀ it ∈ items, InBuf json buf it) →
    joinPairs buf (items.map Item.pair) = .ok (joinP (items.map Item.piece))
  | [], _ => rfl
  | [it], h => (h it (by simp)).slice
  | it :: it' :: items, h => by
    have := joinPairs_items (items := it' :: items) (fun x hx => h x (by simp [hx]))
    simp only [List.map_cons, joinPairs, joinP] at this ⊢
    rw [(h it (by simp)).slice, this]
    rfl

theorem sortPairList_items {json buf : Bytes} {items : List Item} (h : ∀ it ∈ items, InBuf json buf it)
    (hp : items.Pairwise (fun a b => a.pair.vstart < b.pair.vstart)) :
    sortPairList json (items.map Item.pair) = .ok ((sortItems items).map Item.pair) := by
  unfold sortPairList
  split
  · rename_i hl
    match items, hl with
    | [], _ => rfl
    | [it], _ => rfl
    | _ :: _ :: _, hl => simp at hl; omega
  · have hm : (items.map Item.pair).mapM (fun p => pairKey json p >>= fun k => (.ok (k, p) : Res (Bytes × Pair))) =
        .ok (items.map Item.keyed) := by
      clear hp
      rename_i hx
      clear hx
      induction items with
      | nil => rfl
      | cons it items ih =>
        rw [List.map_cons, List.mapM_cons, (h it (by simp)).key]
        simp only [ok_bind]
        rw [ih (fun x hx => h x (by simp [hx]))]
        rfl
    rw [hm]
    simp only [ok_bind]
    rw [sortByKey_keyed hp, List.map_map]
    rfl

theorem sortPairs_items {json base : Bytes} {items : List Item} {buf : Bytes} (hne : items ≠ [])
    (hb : buf = base ++ c! '\n' :: joinP (items.map Item.piece)) (h : ∀ it ∈ items, InBuf json buf it)
    (hp : items.Pairwise (fun a b => a.pair.vstart < b.pair.vstart)) (h0 : ∀ it ∈ items.head?, it.pair.vstart = base.length + 1) :
    sortPairs json buf (items.map Item.pair) = .ok (base ++ c! '\n' :: joinP ((sortItems items).map Item.piece)) := by
  cases items with
  | nil => exact absurd rfl hne
  | cons it items =>
    have e : sortPairs json buf ((it :: items).map Item.pair) =
        (sortPairList json ((it :: items).map Item.pair) >>= fun sorted => joinPairs buf sorted >>= fun nbuf => .ok (buf.take it.pair.vstart ++ nbuf)) := rfl
    rw [e, sortPairList_items h hp]
    simp only [ok_bind]
    rw [joinPairs_items (fun x hx => h x ((sortItems_perm _).mem_iff.1 hx))]
    simp only [ok_bind]
    rw [h0 it (by simp), hb]
    have : (base ++ c! '\n' :: joinP ((it :: items).map Item.piece)).take (base.length + 1) = base ++ [c! '\n'] := by
      rw [List.take_append]; simp [List.take_of_length_le]
    rw [this]; simp

/-- The state of the loop after some members. -/
structure ObjState (json base buf : Bytes) (b : Bool) (pairs : List Pair) (items : List Item) : Prop where
  ne : items ≠ []
  text : buf = base ++ c! '\n' :: joinP (items.map Item.piece)
  piece : ∀ it ∈ items, FragB it.piece (it.key :: [c! ':'] :: it.doc.toks)
  pairs : b = true → pairs = items.map Item.pair ∧ (∀ it ∈ items, InBuf json buf it) ∧
    items.Pairwise (fun a b => a.pair.vstart < b.pair.vstart) ∧ (∀ it ∈ items.head?, it.pair.vstart = base.length + 1)

/-- The tokens of an object up to its last member. -/
theorem ObjState.tokens {json buf0 buf : Bytes} {b pairs items} (h : ObjState json (buf0 ++ [c! '{']) buf b pairs items) :
    ∃ q, buf = buf0 ++ q ∧ FragB q ([c! '{'] :: memToks (items.map Item.kd)) := by
  refine ⟨c! '{' :: c! '\n' :: joinP (items.map Item.piece), by rw [h.text]; simp, ?_⟩
  have := ((Frag.struct (c := c! '{') (by decide)).append (Frag.ws ws_nl)).appendB (joinP_piece h.ne h.piece)
  simpa using this

/-- Sorting at the closing brace. -/
theorem closeSort_items {json buf0 buf : Bytes} {a : PArgs} {pairs items} {b1 : Bytes} 
    (h : ObjState json (buf0 ++ [c! '{']) buf a.sortKeys pairs items) (hc : closeSort json (c! '{') a buf pairs = .ok b1) :
    ∃ q, b1 = buf0 ++ q ∧ FragB q ([c! '{'] :: memToks (order a.sortKeys (items.map Item.kd))) := by
  unfold closeSort at hc
  by_cases hs : a.sortKeys = true
  · rw [if_pos ⟨rfl, hs⟩] at hc
    obtain ⟨h1, h2, h3, h4⟩ := h.pairs hs
    rw [h1, sortPairs_items h.ne h.text h2 h3 h4] at hc
    cases hc
    refine ⟨c! '{' :: c! '\n' :: joinP ((sortItems items).map Item.piece), by simp, ?_⟩
    have hne : sortItems items ≠ [] := fun e => h.ne (by have := (sortItems_perm items).length_eq; rw [e] at this; exact List.length_eq_zero_iff.1 this.symm)
    have := ((Frag.struct (c := c! '{') (by decide)).append (Frag.ws ws_nl)).appendB
      (joinP_piece hne (fun it hi => h.piece it ((sortItems_perm items).mem_iff.1 hi)))
    rw [sortItems_kd] at this
    simpa [order, hs] using this
  · rw [if_neg (fun x => hs x.2)] at hc
    cases hc
    have hs : a.sortKeys = false := by simpa using hs
    have := h.tokens
    rw [hs]
    exact this

theorem commaM_append (xs ys : List (Bytes × Doc)) : commaM (xs ++ ys) = commaM xs ++ commaM ys := by
  induction xs with
  | nil => rfl
  | cons x xs ih => obtain ⟨k, d⟩ := x; simp [commaM, ih]

theorem memToks_append (ys : List (Bytes × Doc)) : ∀ {xs : List (Bytes × Doc)}, xs ≠ [] → memToks (xs ++ ys) = memToks xs ++ commaM ys
  | [], h => absurd rfl h
  | (k, d) :: xs, _ => by
    rw [List.cons_append, memToks_cons, memToks_cons]
    rw [commaM_append]; simp

/-- The state of the loop before a member. -/
def ObjPre (json base buf : Bytes) (b : Bool) (pairs : List Pair) (items : List Item) (n : Nat) : Prop :=
  (n = 0 ∧ items = [] ∧ buf = base ∧ pairs = []) ∨ (0 < n ∧ ObjState json base buf b pairs items)

theorem ws_append {a b : Bytes} (ha : Ws a) (hb : Ws b) : Ws (a ++ b) := by
  intro c hc
  rcases List.mem_append.1 hc with hc | hc
  · exact ha c hc
  · exact hb c hc

/-- The text before the next member. -/
theorem ObjPre.tokens {json buf0 buf : Bytes} {b pairs items n} (h : ObjPre json (buf0 ++ [c! '{']) buf b pairs items n) (kd : Bytes × Doc) :
    ∃ q T, buf ++ ((if n > 0 then [c! ','] else []) ++ [c! '\n']) = buf0 ++ q ∧ Frag q ([c! '{'] :: T) ∧
      memToks (items.map Item.kd ++ [kd]) = T ++ kd.1 :: [c! ':'] :: kd.2.toks := by
  rcases h with ⟨rfl, rfl, rfl, rfl⟩ | ⟨hn, hs⟩
  · refine ⟨[c! '{'] ++ [c! '\n'], [], by simp, ?_, by simp [memToks]⟩
    have := (Frag.struct (c := c! '{') (by decide)).append (Frag.ws ws_nl)
    simpa using this
  · obtain ⟨q, rfl, hq⟩ := hs.tokens
    refine ⟨q ++ [c! ','] ++ [c! '\n'], memToks (items.map Item.kd) ++ [[c! ',']], by simp [hn], ?_, ?_⟩
    · have := (hq.sep (c := c! ',') (by decide)).append (Frag.ws ws_nl)
      simpa using this
    · rw [memToks_append _ (by simpa using hs.ne)]; simp [commaM]

theorem prettyKey_member {json : Bytes} {a : PArgs} {buf : Bytes} {i : Nat} {nl : Int} {k s : Bytes} (hk : StrLit k)
    (hA : At json i (k ++ s)) (hp : a.pretty = true) :
    prettyKey json (c! '{') a buf i nl = .ok (buf ++ (k ++ [c! ':', c! ' ']), i + k.length, nl, if a.sortKeys then i + k.length else 0) ∧
      slice json (i + 1) (i + k.length - 1) = .ok (rawKey k) ∧ 2 ≤ k.length := by
  obtain ⟨body, hb, rfl⟩ := hk
  have e : (c! '"' :: (body ++ [c! '"'])) ++ s = c! '"' :: (body ++ c! '"' :: s) := by simp
  rw [e] at hA
  refine ⟨?_, ?_, by simp⟩
  · unfold prettyKey
    rw [if_pos rfl, prettyString_eq buf nl hA, ← strSplit_eq, strSplit_body hb]
    simp only [ok_bind, if_pos hp]
    have : i + 1 + (body ++ [c! '"']).length = i + (c! '"' :: (body ++ [c! '"'])).length := by simp; omega
    rw [this]; simp
  · have := At.slice hA.cons
    have e2 : i + (c! '"' :: (body ++ [c! '"'])).length - 1 = i + 1 + body.length := by simp; omega
    rw [e2, this]
    simp [rawKey]

/-- One member of an object. -/
theorem objLoop_member {json : Bytes} {any : PrettyFn} (hany : AnyPrints json any) {a : PArgs} {tabs : Int} {depth : Nat} {buf0 : Bytes}
    (hf : FmtOk a (-1)) {k w1 w2 v s : Bytes} {d : Doc} (hk : StrLit k) (hw1 : Ws w1) (hw2 : Ws w2) (hv : Denotes v d) (hs : After s)
    (hlim : depth < MAX_DEPTH)
    {fuel i : Nat} {nl : Int} {buf : Bytes} {pairs : List Pair} {items : List Item} {n : Nat} {res : Bytes × Nat × Int × Bool}
    (hst : ObjPre json (buf0 ++ [c! '{']) buf a.sortKeys pairs items n)
    (hA : At json i (k ++ (w1 ++ c! ':' :: (w2 ++ (v ++ s)))))
    (h : prettyObjLoop any json (c! '{') (c! '}') a tabs (-1) depth fuel i nl buf pairs n = .ok res) :
    (d.height ≤ MAX_DEPTH - 1 - depth ∧ ∃ fuel' i' nl' buf' pairs' it, it.key = k ∧ it.doc = norm a.sortKeys d ∧ At json i' s ∧
      ObjState json (buf0 ++ [c! '{']) buf' a.sortKeys pairs' (items ++ [it]) ∧
      prettyObjLoop any json (c! '{') (c! '}') a tabs (-1) depth fuel' i' nl' buf' pairs' (n + 1) = .ok res) ∨
    (MAX_DEPTH - 1 - depth < d.height ∧ ∃ q, res.1 = buf0 ++ q ∧
      FragB q ([c! '{'] :: (memToks (items.map Item.kd ++ [(k, normLim a.sortKeys (MAX_DEPTH - 1 - depth) d)]) ++ tokens s)) ∧ res.2.1 = json.length) := by
  have hpretty : a.pretty = true := by
    rcases hf.mode with h | h
    · exact h.2
    · exact absurd rfl h.1
  have hk' := hk
  obtain ⟨body, hbody, ek⟩ := hk'
  have hA0 : At json i (c! '"' :: ((body ++ [c! '"']) ++ (w1 ++ c! ':' :: (w2 ++ (v ++ s))))) := by rw [ek] at hA; simpa using hA
  obtain ⟨nl1, b1, b2, i2, nl2, kend, b3, i3, nl3, ok3, fuel2, e1, e2, e3, h2⟩ :=
    objLoop_item hA0 (by decide) (by decide) (.inr rfl) h
  obtain ⟨w, _, hb1, hwn⟩ := sepLine e1 (by
    intro hn
    rcases hst with ⟨_, _, hb, _⟩ | ⟨hn', _⟩
    · exact ⟨buf0, hb⟩
    · omega) (by decide)
  rw [hwn hpretty] at hb1
  obtain ⟨wi, hwi, hind⟩ := prettyIndent_ws hf tabs b1
  rw [hind] at e2
  obtain ⟨e2', hslice, hklen⟩ := prettyKey_member (nl := nl1) (buf := b1 ++ wi) hk hA hpretty
  rw [e2'] at e2
  cases e2
  rcases h2 with ⟨hm, _, _⟩ | ⟨hok3, h2⟩
  · exact absurd rfl hm
  have hpr := hany a (tabs + 1) (-1) depth _ (i + k.length) nl1 (w1 ++ c! ':' :: w2) v s d b3 i3 nl3 ok3 hf hlim
      (by
        have hws : ∀ {w : Bytes}, Ws w → ∀ c ∈ w, c ≤ c! ' ' := by
          intro w hw c hc; have := hw c hc; unfold IsWs at this; grind
        intro c hc
        rcases List.mem_append.1 hc with hc | hc
        · exact .inl (hws hw1 c hc)
        · rcases List.mem_cons.1 hc with rfl | hc
          · simp
          · exact .inl (hws hw2 c hc))
      hv hs (by simpa using hA.append) e3 hok3
  obtain ⟨q, T, hq1, hq2, hq3⟩ := hst.tokens (k, normLim a.sortKeys (MAX_DEPTH - 1 - depth) d)
  have hkey : Frag (wi ++ (k ++ [c! ':', c! ' '])) [k, [c! ':']] := by
    have := (Frag.ws hwi).append ((Frag.str hk).append ((Frag.struct (c := c! ':') (by decide)).append (Frag.ws ws_sp)))
    simpa using this
  rcases hpr with ⟨hle, p, rfl, hp, hA3⟩ | ⟨hgt, p, rfl, hp, hj⟩
  · left
    refine ⟨hle, ?_⟩
    let piece := wi ++ (k ++ [c! ':', c! ' ']) ++ p
    have hbuf3 : b1 ++ wi ++ (k ++ [c! ':', c! ' ']) ++ p = b1 ++ piece := by simp [piece]
    rw [hbuf3] at h2
    have hpiece : FragB piece (k :: [c! ':'] :: (norm a.sortKeys d).toks) := hkey.appendB hp
    let pair : Pair := ⟨i, if a.sortKeys then i + k.length else 0, b1.length, (b1 ++ piece).length⟩
    refine ⟨fuel2, i3, nl3, b1 ++ piece, _, ⟨k, norm a.sortKeys d, piece, pair⟩, rfl, rfl, hA3, ?_, h2⟩
    have htext : b1 ++ piece = buf0 ++ [c! '{'] ++ c! '\n' :: joinP ((items ++ [(⟨k, norm a.sortKeys d, piece, pair⟩ : Item)]).map Item.piece) := by
      rw [hb1]
      rcases hst with ⟨rfl, rfl, rfl, rfl⟩ | ⟨hn, hs⟩
      · simp [joinP]
      · rw [hs.text, List.map_append, List.map_cons, List.map_nil, joinP_snoc _ (by simpa using hs.ne), if_pos hn]
        simp
    refine ⟨by simp, htext, ?_, ?_⟩
    · intro it hi
      rcases List.mem_append.1 hi with hi | hi
      · rcases hst with ⟨_, rfl, _, _⟩ | ⟨_, hs⟩
        · simp at hi
        · exact hs.piece it hi
      · simp at hi; subst hi; exact hpiece
    · intro hsort
      have hnew : InBuf json (b1 ++ piece) ⟨k, norm a.sortKeys d, piece, pair⟩ := by
        refine ⟨?_, by simp [pair], b1, [], by simp, by simp [pair], by simp [pair]⟩
        unfold pairKey
        simp only [pair, hsort, if_true]
        rw [if_neg (by omega)]; exact hslice
      have hpairs : prettyPairs (c! '{') a pairs i (if a.sortKeys then i + k.length else 0) b1.length (b1 ++ piece).length = pairs ++ [pair] := by
        unfold prettyPairs
        rw [if_pos ⟨hpretty, rfl, hsort, by simp [hsort], by simp⟩]
      rw [hpairs]
      rcases hst with ⟨rfl, rfl, rfl, rfl⟩ | ⟨hn, hs⟩
      · refine ⟨rfl, by simpa using hnew, by simp, ?_⟩
        simp [pair, hb1]
      · obtain ⟨h1, h2', h3, h4⟩ := hs.pairs hsort
        have hb1' : b1 ++ piece = buf ++ ([c! ',', c! '\n'] ++ piece) := by rw [hb1, if_pos hn]; simp
        refine ⟨by rw [h1]; simp, ?_, ?_, ?_⟩
        · intro it hi
          rcases List.mem_append.1 hi with hi | hi
          · rw [hb1']; exact (h2' it hi).append _
          · simp at hi; subst hi; exact hnew
        · rw [List.pairwise_append]
          refine ⟨h3, by simp, ?_⟩
          intro x hx y hy
          simp at hy; subst hy
          obtain ⟨pre, suf, hbf, hx1, hx2⟩ := (h2' x hx).piece
          have : x.pair.vstart ≤ buf.length := by rw [hbf, ← hx1]; simp
          simp only [pair, hb1, if_pos hn]
          simp; omega
        · have := hs.ne
          cases items with
          | nil => exact absurd rfl this
          | cons it items => simpa using h4
  · right
    have hend := objLoop_end (by omega) h2
    refine ⟨hgt, q ++ (wi ++ (k ++ [c! ':', c! ' '])) ++ p, ?_, ?_, by rw [hend.2, hj]⟩
    · rw [hend.1, hb1]
      rw [show buf ++ ((if n > 0 then [c! ','] else []) ++ [c! '\n']) ++ wi ++ (k ++ [c! ':', c! ' ']) ++ p =
        (buf ++ ((if n > 0 then [c! ','] else []) ++ [c! '\n'])) ++ (wi ++ (k ++ [c! ':', c! ' ']) ++ p) by simp, hq1]
      simp
    · have h1 := (hq2.append hkey).appendB hp
      rw [hq3]
      simpa using h1

/-- Objects after at least one member. -/
theorem objLoop {json : Bytes} {any : PrettyFn} (hany : AnyPrints json any) {a : PArgs} {tabs : Int} {depth : Nat} {r buf0 : Bytes}
    (hf : FmtOk a (-1)) (hr : Calm r) {ds : List (Bytes × Doc)} {s : Bytes} (hs : RestO r ds s) :
    ∀ {fuel i : Nat} {nl : Int} {buf : Bytes} {pairs : List Pair} {items : List Item} {n : Nat} {res : Bytes × Nat × Int × Bool},
    depth < MAX_DEPTH → At json i s →
    0 < n → ObjState json (buf0 ++ [c! '{']) buf a.sortKeys pairs items →
    prettyObjLoop any json (c! '{') (c! '}') a tabs (-1) depth fuel i nl buf pairs n = .ok res →
    (memHeight ds ≤ MAX_DEPTH - 1 - depth ∧ ∃ q, res.1 = buf0 ++ q ∧ FragB q ([c! '{'] :: (memToks (order a.sortKeys (items.map Item.kd ++ ds.map fun m => (m.1, norm a.sortKeys m.2))) ++ [[c! '}']])) ∧ At json res.2.1 r) ∨
    (MAX_DEPTH - 1 - depth < memHeight ds ∧ ∃ q, res.1 = buf0 ++ q ∧
      FragB q ([c! '{'] :: (memToks (items.map Item.kd ++ limMems a.sortKeys (MAX_DEPTH - 1 - depth) ds) ++ [c! '}'] :: tokens r)) ∧ res.2.1 = json.length) := by
  have hpretty : a.pretty = true := by
    rcases hf.mode with h | h
    · exact h.2
    · exact absurd rfl h.1
  induction hs with
  | @nil w hw =>
    intro fuel i nl buf pairs items n res _ hA _ hst h
    obtain ⟨fuel', i', hA', h'⟩ := objLoop_ws hw hA h
    have h' := objLoop_close (by decide) hA' h'
    obtain ⟨b, w', h1, _, hw', h3, h4⟩ := prettyClose_text hf h'
    obtain ⟨q, rfl, hq⟩ := closeSort_items hst (h1 hpretty)
    left
    refine ⟨by simp [memHeight], q ++ (w' ++ [c! '}']), by rw [h3]; simp, ?_, by rw [h4]; exact hA'.cons⟩
    have := ((hq.ws hw').sep (c := c! '}') (by decide)).b
    simpa using this
  | @cons w w' w1 w2 k v s d ds hw hw' hw1 hw2 hk hv hs ih =>
    intro fuel i nl buf pairs items n res hlim hA hn hst h
    obtain ⟨fuel1, i1, hA1, h1⟩ := objLoop_ws hw hA h
    -- the comma
    have hcomma : ∃ fuel2, prettyObjLoop any json (c! '{') (c! '}') a tabs (-1) depth fuel2 (i1 + 1) nl buf pairs n = .ok res := by
      cases fuel1 with
      | zero => simp [prettyObjLoop, outOfFuel] at h1
      | succ fuel1 =>
        unfold prettyObjLoop at h1
        rw [if_pos hA1.lt, hA1.idx] at h1
        simp only [ok_bind] at h1
        rw [if_neg (by decide), if_neg (by decide), if_neg (by decide)] at h1
        exact ⟨_, h1⟩
    obtain ⟨fuel2, h2⟩ := hcomma
    obtain ⟨fuel3, i3, hA3, h3⟩ := objLoop_ws hw' hA1.cons h2
    rcases objLoop_member hany hf hk hw1 hw2 hv (hs.after hr) hlim (.inr ⟨hn, hst⟩) hA3 h3 with
      ⟨hle, fuel4, i4, nl4, buf4, pairs4, it, hit1, hit2, hA4, hst4, h4⟩ | ⟨hgt, q, h5, h6, h7⟩
    · have hkd : it.kd = (k, norm a.sortKeys d) := by unfold Item.kd; rw [hit1, hit2]
      rcases ih hlim hA4 (Nat.succ_pos n) hst4 h4 with ⟨hle', q, h5, h6, h7⟩ | ⟨hgt, q, h5, h6, h7⟩
      · refine .inl ⟨by simp only [memHeight]; omega, q, h5, ?_, h7⟩
        simpa [hkd] using h6
      · refine .inr ⟨by simp only [memHeight]; omega, q, h5, ?_, h7⟩
        rw [limMems_fit hle]
        simpa [hkd] using h6
    · refine .inr ⟨by simp only [memHeight]; omega, q, h5, ?_, h7⟩
      rw [limMems_deep hgt]
      rw [hs.tokens, memToks_append _ (by simpa using hst.ne)] at h6
      rw [memToks_append _ (by simpa using hst.ne)]
      simpa [commaM] using h6

end Gjson
