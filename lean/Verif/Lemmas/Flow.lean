import Verif.Lemmas.Enum
import Verif.Lemmas.Mod
import Verif.Lemmas.Pad
import Verif.Lemmas.Piece
/-
Texts made of whole JSON values and punctuation. On such texts every token that the
search meets is a whole JSON value, even when a failed search goes on inside a nested
value.
-/
namespace Gjson
open Spec

/-- A byte between values. -/
def Punct (c : UInt8) : Prop := IsWs c ∨ c = c! ',' ∨ c = c! ':' ∨ c = c! '}' ∨ c = c! ']'

/-- Values and punctuation in any order; a value that is not a string is followed by
whitespace, a comma, a closing bracket or the end. -/
inductive Flow : Bytes → Prop
  | nil : Flow []
  | punct {c : UInt8} {r : Bytes} : Punct c → Flow r → Flow (c :: r)
  | val {v r : Bytes} : IsValue v → (Follow r ∨ StrLit v) → Flow r → Flow (v ++ r)

theorem Flow.ws {w r : Bytes} (hw : Ws w) (h : Flow r) : Flow (w ++ r) := by
  induction w with
  | nil => exact h
  | cons c w ih => exact .punct (.inl (hw c (by simp))) (ih fun x hx => hw x (by simp [hx]))

theorem flow_elem {e : Elem} (hw : e.Wf) (hv : IsValue e.val) {r : Bytes} (hf : Follow r) (h : Flow r) :
    Flow (e.text ++ r) := by
  have : e.text ++ r = e.pre ++ (e.val ++ (e.post ++ r)) := by simp [Elem.text]
  rw [this]
  exact .ws hw.1 (.val hv (.inl (.ws hw.2 hf)) (.ws hw.2 h))

theorem flow_member {m : Member} (hw : m.Wf) (hv : IsValue m.val) {r : Bytes} (hf : Follow r) (h : Flow r) :
    Flow (m.text ++ r) := by
  have : m.text ++ r = m.pre ++ (m.key ++ (m.mid1 ++ c! ':' :: (m.mid2 ++ (m.val ++ (m.post ++ r))))) := by
    simp [Member.text]
  rw [this]
  obtain ⟨h1, h2, h3, h4, h5⟩ := hw
  exact .ws h1 (.val (.str h2) (.inr h2) (.ws h3 (.punct (by simp [Punct]) (.ws h4
    (.val hv (.inl (.ws h5 hf)) (.ws h5 h))))))

theorem flow_elems : ∀ {es : List Elem}, (∀ e ∈ es, e.Wf) → (∀ e ∈ es, IsValue e.val) → ∀ {r : Bytes}, Follow r → Flow r →
    Flow (elemsText es ++ r)
  | [], _, _, _, _, h => h
  | [e], hw, hv, r, hf, h => flow_elem (hw e (by simp)) (hv e (by simp)) hf h
  | e :: e' :: es, hw, hv, r, hf, h => by
    have : elemsText (e :: e' :: es) ++ r = e.text ++ c! ',' :: (elemsText (e' :: es) ++ r) := by simp [elemsText]
    rw [this]
    exact flow_elem (hw e (by simp)) (hv e (by simp)) .comma (.punct (by simp [Punct])
      (flow_elems (fun x hx => hw x (by simp [hx])) (fun x hx => hv x (by simp [hx])) hf h))

theorem flow_members : ∀ {ms : List Member}, (∀ e ∈ ms, e.Wf) → (∀ e ∈ ms, IsValue e.val) → ∀ {r : Bytes}, Follow r → Flow r →
    Flow (membersText ms ++ r)
  | [], _, _, _, _, h => h
  | [e], hw, hv, r, hf, h => flow_member (hw e (by simp)) (hv e (by simp)) hf h
  | e :: e' :: es, hw, hv, r, hf, h => by
    have : membersText (e :: e' :: es) ++ r = e.text ++ c! ',' :: (membersText (e' :: es) ++ r) := by simp [membersText]
    rw [this]
    exact flow_member (hw e (by simp)) (hv e (by simp)) .comma (.punct (by simp [Punct])
      (flow_members (fun x hx => hw x (by simp [hx])) (fun x hx => hv x (by simp [hx])) hf h))

/-- The inside of a container, with what follows it. -/
theorem flow_inside {c : UInt8} {v r : Bytes} (h : IsValue (c :: v)) (hc : c = c! '{' ∨ c = c! '[') (hr : Flow r) :
    Flow (v ++ r) := by
  generalize hg : c :: v = u at h
  cases h with
  | null => simp at hg; grind
  | true => simp at hg; grind
  | false => simp at hg; grind
  | str h => obtain ⟨b, _, rfl⟩ := h; simp at hg; grind
  | num h =>
    obtain ⟨d, q', rfl, hd⟩ := NumLit.cons h
    simp at hg; unfold IsDigit at hd; grind
  | arrEmpty hw =>
    simp at hg; rw [hg.2]
    simp only [List.append_assoc, List.singleton_append]
    exact .ws hw (.punct (by simp [Punct]) hr)
  | arr _ hw hv =>
    simp at hg; rw [hg.2]
    simp only [List.append_assoc, List.singleton_append]
    exact flow_elems hw hv .brack (.punct (by simp [Punct]) hr)
  | objEmpty hw =>
    simp at hg; rw [hg.2]
    simp only [List.append_assoc, List.singleton_append]
    exact .ws hw (.punct (by simp [Punct]) hr)
  | obj _ hw hv =>
    simp at hg; rw [hg.2]
    simp only [List.append_assoc, List.singleton_append]
    exact flow_members hw hv .brace (.punct (by simp [Punct]) hr)

theorem Flow.value {v : Bytes} (h : IsValue v) : Flow v := by
  have := Flow.val h (.inl .nil) .nil
  simpa using this

theorem Flow.text {t : Bytes} (h : JsonText t) : Flow t := by
  obtain ⟨w1, v, w2, rfl, h1, h3, h2⟩ := h
  exact Flow.ws h1 (.val h2 (.inl (Follow.ws' h3)) (by simpa using Flow.ws h3 .nil))

/-- What a flow starts with. -/
theorem Flow.inv {c : UInt8} {r : Bytes} (h : Flow (c :: r)) :
    (Punct c ∧ Flow r) ∨ ∃ v q, IsValue v ∧ (Follow q ∨ StrLit v) ∧ Flow q ∧ c :: r = v ++ q := by
  generalize hg : c :: r = s at h
  cases h with
  | nil => simp at hg
  | punct h1 h2 => simp at hg; obtain ⟨rfl, rfl⟩ := hg; exact .inl ⟨h1, h2⟩
  | val h1 h2 h3 => exact .inr ⟨_, _, h1, h2, h3, rfl⟩

theorem Punct.not_starts {c : UInt8} (h : Punct c) : ¬ StartsValue c := by
  unfold Punct IsWs at h
  unfold StartsValue IsDigit
  grind (splits := 40)

theorem Punct.skip {c : UInt8} (h : Punct c) : (c ≤ c! ' ' ∨ c = c! ',' ∨ c = c! ':') ∨ (c = c! '}' ∨ c = c! ']') := by
  unfold Punct at h
  rcases h with h | h
  · exact .inl (.inl (ws_le h))
  · grind

theorem Flow.tok {c : UInt8} {r : Bytes} (h : Flow (c :: r)) (hc : ¬ Punct c) :
    ∃ v q, IsValue v ∧ Flow q ∧ c :: r = v ++ q ∧ leafTok (c :: r) = (some (v, infoOf v), q) ∧ (Follow q ∨ StrLit v) := by
  rcases h.inv with h | ⟨v, q, h1, h2, h3, h4⟩
  · exact absurd h.1 hc
  · refine ⟨v, q, h1, h3, h4, ?_, h2⟩
    rw [h4]
    rcases h2 with h2 | h2
    · exact leafTok_value h1 h2
    · exact leafTok_str h2

/-- Closed under going into a container. -/
theorem Flow.enter {c : UInt8} {r : Bytes} (h : Flow (c :: r)) (hc : c = c! '{' ∨ c = c! '[') : Flow r := by
  rcases h.inv with h | ⟨v, q, h1, _, h3, h4⟩
  · exact absurd (by unfold StartsValue; rcases hc with rfl | rfl <;> simp : StartsValue c) h.1.not_starts
  · obtain ⟨d, v', rfl, _⟩ := IsValue.cons h1
    simp at h4
    obtain ⟨rfl, rfl⟩ := h4
    exact flow_inside h1 hc h3

theorem Flow.skipWs {c : UInt8} {r : Bytes} (h : Flow (c :: r)) (hc : c ≤ c! ' ' ∨ c = c! ',' ∨ c = c! ':') : Flow r := by
  rcases h.inv with h | ⟨v, q, h1, _, _, h4⟩
  · exact h.2
  · obtain ⟨d, v', rfl, hs⟩ := IsValue.cons h1
    simp at h4
    obtain ⟨rfl, _⟩ := h4
    exact absurd hc hs.not_skip.1

theorem pSkipColon_flow : ∀ {s : Bytes}, Flow s → Flow (pSkipColon s)
  | [], h => h
  | c :: r, h => by
    unfold pSkipColon
    split
    · exact pSkipColon_flow (h.skipWs (by grind))
    · exact h

/-- A value found in the flow `s`. -/
def Whole (s : Bytes) (v : Value) : Prop := v.exists = true → IsValue v.json ∧ v.json <:+: s

theorem whole_default (s : Bytes) : Whole s Value.default := by intro h; exact absurd h (by decide)

theorem Whole.mono {a b : Bytes} {v : Value} (h : Whole a v) (hab : a <:+: b) : Whole b v :=
  fun hv => ⟨(h hv).1, (h hv).2.trans hab⟩

theorem whole_tok {c : UInt8} {r : Bytes} (h : Flow (c :: r)) (i : Nat) : Whole (c :: r) (tokVal i (leafTok (c :: r)).1) := by
  by_cases hc : Punct c
  · have : (leafTok (c :: r)).1 = none := by
      have := hc.not_starts
      unfold StartsValue IsDigit at this
      simp only [leafTok]
      rw [if_neg (by grind), if_neg (by grind), if_neg (by unfold NumStart; grind), if_neg (by grind), if_neg (by grind), if_neg (by grind)]
    rw [this]; exact whole_default _
  · obtain ⟨v, q, h1, h2, h3, h4, _⟩ := h.tok hc
    rw [h4]
    intro _
    have : (tokVal i (some (v, infoOf v))).json = v := leafVal_json _ _
    simp only
    rw [this, h3]
    exact ⟨h1, (List.prefix_append v q).isInfix⟩

theorem leafTok_flow {c : UInt8} {r : Bytes} (h : Flow (c :: r)) : Flow (leafTok (c :: r)).2 := by
  by_cases hc : Punct c
  · have : (leafTok (c :: r)).2 = [] := by
      have := hc.not_starts
      unfold StartsValue IsDigit at this
      simp only [leafTok]
      rw [if_neg (by grind), if_neg (by grind), if_neg (by unfold NumStart; grind), if_neg (by grind), if_neg (by grind), if_neg (by grind)]
    rw [this]; exact .nil
  · obtain ⟨v, q, h1, h2, h3, h4, _⟩ := h.tok hc
    rw [h4]; exact h2

theorem toks_whole (i : Nat) {s : Bytes} (h : Flow s) : ∀ v ∈ toks i s, Whole s v := by
  generalize hn : s.length = n
  induction n using Nat.strongRecOn generalizing i s with
  | ind n ih =>
    cases s with
    | nil => simp [toks_nil]
    | cons c r =>
      intro v hv
      by_cases c1 : c ≤ c! ' ' ∨ c = c! ',' ∨ c = c! ':'
      · rw [toks_skip c1] at hv
        exact (ih r.length (by simp at hn; omega) _ (h.skipWs c1) rfl v hv).mono (List.suffix_cons c r).isInfix
      by_cases c2 : c = c! '}' ∨ c = c! ']'
      · rw [toks_close c2] at hv; simp at hv
      rw [toks_tok c1 c2] at hv
      split at hv
      · rcases List.mem_cons.1 hv with rfl | hv
        · exact whole_tok h _
        · have := leafTok_lt (s := c :: r) (by simp)
          exact (ih _ (by omega) _ (leafTok_flow h) rfl v hv).mono (leafTok_suffix (by simp)).isInfix
      · simp at hv

theorem gObjLoop_whole {Q : Value → Prop} {d : Bytes → Res (Value × Path)} {p : Path} (L : Nat) :
    ∀ (s : Bytes), Flow s → (∀ v, Whole s v → Q v) →
      (∀ c r, c :: r <:+ s → Flow (c :: r) → (c = c! '{' ∨ c = c! '[') → ∀ x, p.dives = true → d (c :: r) = .ok x → Q x.1) →
      ∀ x, gObjLoop d L p s = .ok x → Q x.1 := by
  intro s
  generalize hn : s.length = n
  induction n using Nat.strongRecOn generalizing s with
  | ind n ih =>
    intro hf hq' hd x h
    cases s with
    | nil => rw [gObjLoop_nil] at h; cases h; exact hq' _ (whole_default _)
    | cons c r =>
      have next : ∀ t, Flow t → t <:+ c :: r → t.length < n → gObjLoop d L p t = .ok x → Q x.1 := by
        intro t ft ht hl hx
        exact ih t.length hl t rfl ft (fun v hv => hq' v (hv.mono ht.isInfix)) (fun u w hu => hd u w (hu.trans ht)) x hx
      by_cases c1 : c = c! '}'
      · rw [c1, gObjLoop_close] at h; cases h; exact hq' _ (whole_default _)
      by_cases c2 : c = c! '"'
      · subst c2
        cases hq : qStr r with
        | none => rw [gObjLoop_nokey _ _ _ hq] at h; cases h; exact hq' _ (whole_default _)
        | some y =>
          obtain ⟨b, f, q⟩ := y
          have fq : Flow q := by
            have := leafTok_flow hf
            simp only [leafTok, if_true, hq] at this
            exact this
          cases hv' : pSkipColon q with
          | nil => rw [gObjLoop_noval _ _ _ hq hv'] at h; cases h; exact hq' _ (whole_default _)
          | cons c3 r3 =>
            rw [gObjLoop_key _ _ _ hq hv'] at h
            have f3 : Flow (c3 :: r3) := by rw [← hv']; exact pSkipColon_flow fq
            have l1 := qStr_lt hq
            have l2 := pSkipColon_le q
            rw [hv'] at l2
            have l3 := leafTok_lt (s := c3 :: r3) (by simp)
            simp only [List.length_cons] at hn l2 l3
            have s1 : c3 :: r3 <:+ c! '"' :: r := by
              rw [← hv']
              exact (pSkipColon_suffix q).trans (List.IsSuffix.trans ⟨b, (qStr_append hq).symm⟩ (List.suffix_cons _ _))
            have s2 := (leafTok_suffix (s := c3 :: r3) (by simp)).trans s1
            split at h
            · split at h
              · rename_i hdv
                obtain ⟨y, h1, h2⟩ := bind_eq_ok.1 h
                obtain ⟨v1, q1⟩ := y
                simp only at h2
                split at h2
                · cases h2
                  exact hd _ _ s1 f3 hdv.2 _ hdv.1 h1
                · exact next _ f3 s1 (by simp only [List.length_cons]; omega) h2
              · split at h
                · cases h
                  exact hq' _ ((whole_tok f3 _).mono s1.isInfix)
                · exact next _ (leafTok_flow f3) s2 (by omega) h
            · exact next _ (leafTok_flow f3) s2 (by omega) h
      · rcases hf.inv with hp | ⟨v, q, h1, h2, h3, h4⟩
        · rw [gObjLoop_skip _ _ _ _ c1 c2] at h
          exact next r hp.2 (List.suffix_cons _ _) (by simp at hn; omega) h
        · by_cases c3 : c = c! '{' ∨ c = c! '['
          · rw [gObjLoop_skip _ _ _ _ c1 c2] at h
            exact next r (hf.enter c3) (List.suffix_cons _ _) (by simp at hn; omega) h
          · have hplain : ∀ x ∈ v, x ≠ c! '"' ∧ x ≠ c! '}' := by
              obtain ⟨e, v', rfl, _⟩ := IsValue.cons h1
              simp at h4
              obtain ⟨rfl, _⟩ := h4
              generalize hg : c :: v' = u at h1
              cases h1 with
              | null => decide
              | true => decide
              | false => decide
              | str h => obtain ⟨b, _, rfl⟩ := h; simp at hg; grind
              | num h =>
                intro x hx
                have := numLit_numCh h x hx
                unfold NumCh at this; grind
              | arrEmpty hw => simp at hg; grind
              | arr _ hw hv => simp at hg; grind
              | objEmpty hw => simp at hg; grind
              | obj _ hw hv => simp at hg; grind
            have hne := IsValue.ne_nil h1
            rw [h4, gObjLoop_skips hplain] at h
            refine next q h3 ⟨v, h4.symm⟩ ?_ h
            have := congrArg List.length h4
            have : 0 < v.length := by cases v; exact absurd rfl hne; simp
            simp at *; omega

end Gjson
