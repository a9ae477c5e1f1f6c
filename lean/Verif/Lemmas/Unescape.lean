import Verif.Lemmas.At
import Verif.Model.Util
/-
`unescape` as a function on suffixes.
-/
namespace Gjson

/-- Code point of a `\uXXXX` escape, given its four digits. -/
def hex4 (h : Bytes) : Nat := (fromStrRadix16 h).getD 0xFFFD

/-- Code point appended for a pair of `\u` escapes whose first is a surrogate. -/
def pair4 (r : Nat) (h2 : Bytes) : Nat :=
  match fromStrRadix16 h2 with
  | some r2 => charFromU32 (utf16Decode r r2)
  | none => charFromU32 0xFFFD

/-- The bytes that `unescape` appends for the inner text `s`. -/
def unesc : Bytes → Bytes
  | [] => []
  | c :: r =>
    if c < c! ' ' then []
    else if c = c! '\\' then
      match r with
      | [] => []
      | e :: r' =>
        match simpleEscape e with
        | some o => o :: unesc r'
        | none =>
          if e = c! 'u' then
            match r' with
            | h1 :: h2 :: h3 :: h4 :: q =>
              if utf16IsSurrogate (hex4 [h1, h2, h3, h4]) then
                match q with
                | a :: b :: g1 :: g2 :: g3 :: g4 :: q' =>
                  if a = c! '\\' ∧ b = c! 'u' then
                    encodeUtf8 (pair4 (hex4 [h1, h2, h3, h4]) [g1, g2, g3, g4]) ++ unesc q'
                  else encodeUtf8 (charFromU32 (hex4 [h1, h2, h3, h4])) ++
                    unesc (a :: b :: g1 :: g2 :: g3 :: g4 :: q')
                | q => encodeUtf8 (charFromU32 (hex4 [h1, h2, h3, h4])) ++ unesc q
              else encodeUtf8 (charFromU32 (hex4 [h1, h2, h3, h4])) ++ unesc q
            | _ => []
          else []
    else c :: unesc r

theorem unescapeLoop_at {json : Bytes} : ∀ (n i : Nat) (s out : Bytes), At json i s → s.length < n →
    unescapeLoop json n i out = .ok (out ++ unesc s)
  | 0, _, _, _, _, h => by omega
  | n + 1, i, [], out, h, _ => by
    unfold unescapeLoop
    rw [if_pos h.nil]; simp [unesc]
  | n + 1, i, c :: r, out, h, hl => by
    unfold unescapeLoop
    rw [if_neg h.ne, h.idx]
    simp only [ok_bind]
    rw [unesc.eq_def]
    simp only
    by_cases c1 : c < c! ' '
    · rw [if_pos c1, if_pos c1]; simp
    rw [if_neg c1, if_neg c1]
    by_cases c2 : c = c! '\\'
    · rw [if_pos c2, if_pos c2]
      have he := h.cons
      cases r with
      | nil => rw [if_pos he.nil]; simp
      | cons e r' =>
        rw [if_neg he.ne, he.idx]
        simp only [ok_bind]
        cases hs : simpleEscape e with
        | some o =>
          simp only
          rw [unescapeLoop_at n _ r' _ he.cons (by simp at hl; omega)]
          simp
        | none =>
          simp only
          by_cases c3 : e = c! 'u'
          · rw [if_pos c3, if_pos c3]
            unfold unescapeU
            have hlen := he.len
            by_cases h5 : i + 1 + 5 > json.length
            · rw [if_pos h5]
              simp only [ok_bind]
              match r', hlen with
              | [], _ => simp
              | [_], _ => simp
              | [_, _], _ => simp
              | [_, _, _], _ => simp
              | _ :: _ :: _ :: _ :: _, hlen => simp at hlen; omega
            · rw [if_neg h5]
              match r', hlen, he, hl with
              | [], hlen, _, _ => simp at hlen; omega
              | [_], hlen, _, _ => simp at hlen; omega
              | [_, _], hlen, _, _ => simp at hlen; omega
              | [_, _, _], hlen, _, _ => simp at hlen; omega
              | h1 :: h2 :: h3 :: h4 :: q, hlen, he, hl =>
                have hh : At json (i + 1 + 1) ([h1, h2, h3, h4] ++ q) := he.cons
                have hsl : slice json (i + 1 + 1) (i + 1 + 5) = .ok [h1, h2, h3, h4] := hh.slice' (by simp)
                have hq : At json (i + 1 + 5) q := hh.append
                have hhex : (fromStrRadix16 [h1, h2, h3, h4]).getD 0xFFFD = hex4 [h1, h2, h3, h4] := rfl
                simp only [hsl, ok_bind, hq.sliceFrom, hhex]
                have ih := fun out => unescapeLoop_at n (i + 1 + 5) q out hq (by simp at hl; omega)
                by_cases c4 : utf16IsSurrogate (hex4 [h1, h2, h3, h4]) = true
                · rw [if_pos c4, if_pos c4]
                  by_cases c5 : q.length ≥ 6
                  · rw [if_pos c5]
                    match q, c5, hq, hl, ih with
                    | a :: b :: g1 :: g2 :: g3 :: g4 :: q', _, hq, hl, ih =>
                      rw [hq.idx]
                      simp only [ok_bind]
                      rw [hq.cons.idx]
                      have hg : At json (i + 1 + 5 + 2) ([g1, g2, g3, g4] ++ q') := hq.cons.cons
                      have hg' : At json (i + 1 + 5 + 6) q' := hg.append
                      have ih' := fun out => unescapeLoop_at n (i + 1 + 5 + 6) q' out hg' (by simp at hl; omega)
                      by_cases ha : a = c! '\\'
                      · rw [if_pos ha]
                        simp only [ok_bind]
                        by_cases hb : b = c! 'u'
                        · rw [if_pos hb, if_pos ⟨ha, hb⟩, hg.slice' (by simp)]
                          simp only [ok_bind]
                          unfold pair4
                          cases hf : fromStrRadix16 [g1, g2, g3, g4] with
                          | none =>
                            simp only [ok_bind]
                            rw [ih']; simp
                          | some r2 =>
                            simp only [ok_bind]
                            rw [ih']; simp [hex4]
                        · rw [if_neg hb, if_neg (by simp [hb])]
                          simp only [ok_bind]
                          rw [ih]; simp [hex4]
                      · rw [if_neg ha, if_neg (by simp [ha])]
                        simp only [ok_bind]
                        rw [ih]; simp [hex4]
                  · rw [if_neg c5]
                    simp only [ok_bind]
                    rw [ih]
                    match q, c5 with
                    | [], _ => simp [hex4]
                    | [_], _ => simp [hex4]
                    | [_, _], _ => simp [hex4]
                    | [_, _, _], _ => simp [hex4]
                    | [_, _, _, _], _ => simp [hex4]
                    | [_, _, _, _, _], _ => simp [hex4]
                    | _ :: _ :: _ :: _ :: _ :: _ :: _, c5 => simp at c5
                · rw [if_neg c4, if_neg c4]
                  simp only [ok_bind]
                  rw [ih]; simp [hex4]
          · rw [if_neg c3, if_neg c3]; simp
    · rw [if_neg c2, if_neg c2]
      rw [unescapeLoop_at n _ r _ h.cons (by simp at hl; omega)]
      simp

/-- What `unescape` returns on a text with its quotes. -/
def unescQ (json : Bytes) : Bytes :=
  match json with
  | a :: b :: r =>
    if a = c! '"' ∧ (b :: r).getLast (by simp) = c! '"' then unesc (b :: r).dropLast else []
  | _ => []

theorem unescape_eq (json : Bytes) : unescape json = .ok (unescQ json) := by
  unfold unescape unescQ
  match json with
  | [] => simp
  | [_] => simp
  | a :: b :: r =>
    simp only
    rw [if_neg (by simp)]
    have h0 := At.zero (a :: b :: r)
    rw [h0.idx]
    simp only [ok_bind]
    have e : (b :: r) = (b :: r).dropLast ++ [(b :: r).getLast (by simp)] :=
      (List.dropLast_concat_getLast _).symm
    have h1 : At (a :: b :: r) 1 ((b :: r).dropLast ++ [(b :: r).getLast (by simp)]) := e ▸ h0.cons
    have hlen := h1.len
    rw [List.length_append, List.length_singleton] at hlen
    have h2 : At (a :: b :: r) ((a :: b :: r).length - 1) [(b :: r).getLast (by simp)] :=
      h1.append' (by omega)
    rw [h2.idx]
    simp only [ok_bind]
    by_cases hc : a = c! '"' ∧ (b :: r).getLast (by simp) = c! '"'
    · rw [if_neg (by grind), if_pos hc, h1.slice' (by omega)]
      simp only [ok_bind]
      rw [unescapeLoop_at _ 0 _ [] (At.zero _) (by omega)]
      simp
    · rw [if_pos (by grind), if_neg hc]

theorem unescQ_quoted (b : Bytes) : unescQ (c! '"' :: (b ++ [c! '"'])) = unesc b := by
  cases b with
  | nil => rfl
  | cons x b =>
    unfold unescQ
    have h1 : ((x :: b) ++ [c! '"']).getLast (by simp) = c! '"' := List.getLast_concat
    have h2 : ((x :: b) ++ [c! '"']).dropLast = x :: b := List.dropLast_concat
    simp only [List.cons_append] at h1 h2 ⊢
    rw [if_pos ⟨trivial, h1⟩, h2]

theorem unescape_quoted (b : Bytes) : unescape (c! '"' :: (b ++ [c! '"'])) = .ok (unesc b) := by
  rw [unescape_eq, unescQ_quoted]

end Gjson
