import Verif.Proof.UriCode
/-! C89: percent encoding and query strings of `rfc.uri`. -/
namespace Gauche.UriCode

/-- C89: decoding what was encoded gives the bytes back, for every set of characters that are not escaped, if `%` is not among them, nor `+`
when decoding the CGI way. -/
theorem C89_round_trip (wc : Nat → List Nat) (hwc : ∀ c, c < 128 → wc c = [c]) (echars : Nat → Bool) (cgi : Bool) (h37 : echars 37 = false)
    (h43 : cgi = true → echars 43 = false) (l : List Nat) (hl : ∀ c ∈ l, c < 256) : decode wc cgi (encode echars l) = l :=
  dec_encode hwc h37 h43 l hl _ (Nat.le_refl _)

/-- C89: only characters of ASCII that need not be escaped, `%` and upper-case hexadecimal digits are written. -/
theorem C89_chars (echars : Nat → Bool) (l : List Nat) (hl : ∀ c ∈ l, c < 256) : ∀ c ∈ encode echars l,
    (c < 128 ∧ echars c = true) ∨ c = 37 ∨ (48 ≤ c ∧ c ≤ 57) ∨ (65 ≤ c ∧ c ≤ 70) := encode_chars echars l hl

/-- C89: a string without `%` (and without `+` when decoding the CGI way) is decoded as it is; `+` is otherwise decoded as a space. -/
theorem C89_plain (wc : Nat → List Nat) (hwc : ∀ c, c < 128 → wc c = [c]) (cgi : Bool) (l : List Nat) :
    ((∀ c ∈ l, c ≠ 37 ∧ (cgi = true → c ≠ 43)) → decode wc cgi l = l.flatMap wc) ∧
    (∀ l, decode wc true (43 :: l) = 32 :: decode wc true l) := by
  refine ⟨fun h => dec_plain hwc cgi l _ (Nat.le_refl _) h, fun l => ?_⟩
  rw [decode, List.length_cons, dec.eq_def]
  dsimp only
  rw [if_neg (by omega), if_pos rfl, if_pos rfl, hwc 32 (by omega)]; rfl

/-- C89: taking apart a query string that was composed gives the parameters back: names and values of any bytes, with a value or without,
except a parameter with an empty name and no value. -/
theorem C89_query (wc : Nat → List Nat) (hwc : ∀ c, c < 128 → wc c = [c]) (params : List (List Nat × Option (List Nat)))
    (h : ∀ p ∈ params, (∀ c ∈ p.1, c < 256) ∧ (∀ v, p.2 = some v → ∀ c ∈ v, c < 256) ∧ p ≠ ([], none)) :
    decomposeQuery wc (composeQuery params) = some params := by
  rw [decomposeQuery]
  by_cases hp : params = []
  · subst hp; rfl
  · obtain ⟨e, d, r, hd, _⟩ := splitLoop_compose params hp h _ (Nat.lt_succ_self _)
    rw [splitOn, if_neg (by rw [hd]; simp)]
    exact (congrArg _ e).trans (mapE_map hwc params h)

/-- What C89 does not give: a query string that begins or ends with `&` cannot be taken apart, `(car '())` is an error; a parameter with an empty
name and no value makes such a string; and several `&` in a row are one. -/
theorem C89_bug_empty_part (wc : Nat → List Nat) (hwc : ∀ c, c < 128 → wc c = [c]) :
    decomposeQuery wc [97, 38] = none ∧ decomposeQuery wc [38, 97] = none ∧
    composeQuery [([97], none), ([], none)] = [97, 38] ∧
    decomposeQuery wc [97, 38, 38, 98] = some [([97], none), ([98], none)] := by
  refine ⟨?_, ?_, by decide +kernel, ?_⟩
  · simp [decomposeQuery, splitOn, splitLoop, scan, mapE, decompose1]
  · simp [decomposeQuery, splitOn, splitLoop, scan, mapE, decompose1]
  · have e : splitOn (fun c => decide (c = 38) || decide (c = 59)) [97, 38, 38, 98] = [[97], [98]] := by decide +kernel
    rw [decomposeQuery, e]
    simp [mapE, decompose1, split1, decode, dec, hwc]

/-! Non-vacuity. -/
example : encode unreserved [97, 32, 255] = [97, 37, 50, 48, 37, 70, 70] := by decide +kernel
example : unreserved 37 = false ∧ unreserved 43 = false ∧ unreserved2396 37 = false := by decide +kernel
example : composeQuery [([97, 38], some [61]), ([98], none)] = [97, 37, 50, 54, 61, 37, 51, 68, 38, 98] := by decide +kernel

end Gauche.UriCode
