import Verif.Model.Formats
import Mathlib.Data.Nat.Digits.Defs
import Mathlib.Tactic.Common

/-! # C175 Patterns made from printf formats match their outputs -/

namespace Pixell

/-! ## Reading one conversion -/

theorem splitsLong_append {p : Char → Bool} {a b : List Char} (ha : ∀ c ∈ a, p c = true) (hb : ∀ c ∈ b.head?, p c = false) :
    ∃ tl, splitsLong p (a ++ b) = (a, b) :: tl := by
  induction a with
  | nil =>
    cases b with
    | nil => exact ⟨[], rfl⟩
    | cons c b =>
      have := hb c (by simp)
      exact ⟨[], by simp [splitsLong, this]⟩
  | cons c a ih =>
    obtain ⟨tl, h⟩ := ih fun d hd => ha d (by simp [hd])
    refine ⟨tl.map (fun r => (c :: r.1, r.2)) ++ [([], c :: (a ++ b))], ?_⟩
    rw [List.cons_append, splitsLong, if_pos (ha c (by simp)), h]
    rfl

theorem flatMap_first {α β : Type} {l : List α} {f : α → List β} {x : α} {y : β} (h1 : ∃ tl, l = x :: tl) (h2 : ∃ tl, f x = y :: tl) :
    ∃ tl, l.flatMap f = y :: tl := by
  obtain ⟨t1, h1⟩ := h1
  obtain ⟨t2, h2⟩ := h2
  exact ⟨t2 ++ t1.flatMap f, by rw [h1, List.flatMap_cons, h2]; rfl⟩

/-- A named conversion: a name, flags, a width without leading zero, a precision and a type. -/
structure Conv where
  name : List Char
  flags : List Char
  width : List Char
  prec : Option (List Char)
  typ : Char

/-- The conversion as written in a format. -/
def Conv.text (c : Conv) : List Char :=
  '%' :: '(' :: c.name ++ ')' :: c.flags ++ c.width ++ (match c.prec with
    | none => []
    | some p => '.' :: p) ++ [c.typ]

/-- What printf allows. -/
structure Conv.Ok (c : Conv) : Prop where
  name : ∃ a w, c.name = a :: w ∧ a.isAlpha = true ∧ ∀ d ∈ w, isWordChar d = true
  flags : ∀ d ∈ c.flags, isFlag d = true
  width : (∀ d ∈ c.width, d.isDigit = true) ∧ ∀ d ∈ c.width.head?, d ≠ '0'
  prec : ∀ p ∈ c.prec, p ≠ [] ∧ ∀ d ∈ p, d.isDigit = true
  typ : c.typ ∈ ['d', 'i', 'u', 'o', 'x', 'X', 'e', 'E', 'f', 'F', 'g', 'G', 's']

/-- The groups that should be found. -/
def Conv.spec (c : Conv) : FmtSpec := ⟨'(' :: c.name ++ [')'], c.flags, c.width, c.prec.map ('.' :: ·), c.typ⟩

theorem typ_facts {t : Char} (h : t ∈ ['d', 'i', 'u', 'o', 'x', 'X', 'e', 'E', 'f', 'F', 'g', 'G', 's']) :
    t.isDigit = false ∧ isFlag t = false ∧ t ≠ '.' ∧ t ≠ '*' ∧ t ≠ 'l' ∧ t ≠ 'h' ∧ t ≠ 'q' ∧ t ≠ 'L' ∧ t ≠ '\n' ∧ t ≠ ')' ∧ t ≠ '%' := by
  revert t
  decide

theorem digit_facts {d : Char} (h : d.isDigit = true) (h0 : d ≠ '0') : isFlag d = false ∧ d ≠ ')' := by
  constructor
  · unfold isFlag
    simp only [Bool.or_eq_false_iff, beq_eq_false_iff_ne]
    refine ⟨⟨⟨⟨?_, ?_⟩, h0⟩, ?_⟩, ?_⟩ <;> rintro rfl <;> revert h <;> decide
  · rintro rfl; revert h; decide

theorem flag_paren {d : Char} (h : isFlag d = true) : d ≠ ')' := by
  rintro rfl; revert h; decide

theorem specMatch_text {c : Conv} (hc : c.Ok) (rest : List Char) : ∃ tl, specMatch (c.text ++ rest) = (c.spec, rest) :: tl := by
  obtain ⟨a, w, hn, ha, hw⟩ := hc.name
  obtain ⟨t1, t2, t3, t4, t5, t6, t7, t8, t9, t10, t11⟩ := typ_facts hc.typ
  obtain ⟨hw1, hw2⟩ := hc.width
  set P : List Char := match c.prec with
    | none => []
    | some p => '.' :: p with hP
  have e : c.text ++ rest = '%' :: '(' :: a :: (w ++ ')' :: (c.flags ++ (c.width ++ (P ++ c.typ :: rest)))) := by
    unfold Conv.text
    rw [hn, ← hP]
    simp
  have hPh : ∀ d ∈ (P ++ c.typ :: rest).head?, d.isDigit = false ∧ isFlag d = false ∧ d ≠ ')' := by
    intro d hd
    cases hpr : c.prec with
    | none =>
      rw [hP, hpr] at hd
      simp at hd
      subst hd
      exact ⟨t1, t2, t10⟩
    | some p =>
      rw [hP, hpr] at hd
      simp at hd
      subst hd
      decide
  have hWh : ∀ d ∈ (c.width ++ (P ++ c.typ :: rest)).head?, isFlag d = false ∧ d ≠ ')' := by
    intro d hd
    cases hwd : c.width with
    | nil =>
      rw [hwd] at hd
      exact (hPh d hd).2
    | cons x y =>
      rw [hwd] at hd
      simp at hd
      subst hd
      exact digit_facts (hw1 x (by rw [hwd]; simp)) (hw2 x (by rw [hwd]; simp))
  have hFh : ∀ d ∈ (c.flags ++ (c.width ++ (P ++ c.typ :: rest))).head?, d ≠ ')' := by
    intro d hd
    cases hf : c.flags with
    | nil =>
      rw [hf] at hd
      exact (hWh d hd).2
    | cons x y =>
      rw [hf] at hd
      simp at hd
      subst hd
      exact flag_paren (hc.flags x (by rw [hf]; simp))
  have n1 : ∃ tl, nameAlts ('(' :: a :: (w ++ ')' :: (c.flags ++ (c.width ++ (P ++ c.typ :: rest))))) =
      ('(' :: c.name ++ [')'], c.flags ++ (c.width ++ (P ++ c.typ :: rest))) :: tl := by
    obtain ⟨tl, h⟩ := splitsLong_append (p := isWordChar) (a := w) (b := ')' :: (c.flags ++ (c.width ++ (P ++ c.typ :: rest)))) hw
      (by intro d hd; simp at hd; subst hd; decide)
    unfold nameAlts nameAlt1
    simp only [if_pos ha]
    rw [h]
    simp only [List.filterMap_cons]
    rw [hn]
    exact ⟨_, rfl⟩
  have n2 : ∃ tl, parenAlts (c.flags ++ (c.width ++ (P ++ c.typ :: rest))) = (c.flags ++ (c.width ++ (P ++ c.typ :: rest))) :: tl := by
    generalize c.flags ++ (c.width ++ (P ++ c.typ :: rest)) = s at hFh
    unfold parenAlts
    split
    · exact absurd rfl (hFh ')' (by simp))
    · exact ⟨[], rfl⟩
  have n3 := splitsLong_append (p := isFlag) (a := c.flags) (b := c.width ++ (P ++ c.typ :: rest)) hc.flags fun d hd => (hWh d hd).1
  have n4 : ∃ tl, widthAlts (c.width ++ (P ++ c.typ :: rest)) = (c.width, P ++ c.typ :: rest) :: tl := by
    obtain ⟨tl, h⟩ := splitsLong_append (p := Char.isDigit) (a := c.width) (b := P ++ c.typ :: rest) hw1 fun d hd => (hPh d hd).1
    unfold widthAlts
    rw [h]
    exact ⟨_, rfl⟩
  have n5 : ∃ tl, precAlts (P ++ c.typ :: rest) = (c.prec.map ('.' :: ·), c.typ :: rest) :: tl := by
    cases hpr : c.prec with
    | none =>
      have : P = [] := by rw [hP, hpr]
      rw [this, List.nil_append]
      unfold precAlts
      refine ⟨[], ?_⟩
      split
      · rename_i h; simp at h; exact absurd h.1 t3
      · rfl
    | some p =>
      have hPp : P = '.' :: p := by rw [hP, hpr]
      obtain ⟨p1, p2⟩ := hc.prec p (by rw [hpr]; simp)
      obtain ⟨tl, h⟩ := splitsLong_append (p := Char.isDigit) (a := p) (b := c.typ :: rest) p2 (by intro d hd; simp at hd; subst hd; exact t1)
      rw [hPp]
      unfold precAlts
      simp only [List.cons_append]
      rw [h]
      simp only [List.filterMap_cons, if_neg p1, List.cons_append]
      exact ⟨_, rfl⟩
  have n6 : ∃ tl, sizeAlts (c.typ :: rest) = (c.typ :: rest) :: tl := by
    unfold sizeAlts
    refine ⟨[], ?_⟩
    have : (c.typ == 'l' || c.typ == 'h' || c.typ == 'q' || c.typ == 'L') = false := by simp [t5, t6, t7, t8]
    simp only [this]
    split
    · rename_i h; simp at h; exact absurd h.1 t5
    · rfl
  rw [e]
  unfold specMatch
  refine flatMap_first n1 (flatMap_first n2 (flatMap_first n3 (flatMap_first n4 (flatMap_first n5 (flatMap_first n6 ?_)))))
  refine ⟨[], ?_⟩
  simp [typeAlts, t9, Conv.spec]

theorem specMatch_lit {d : Char} (h : d ≠ '%') (s : List Char) : specMatch (d :: s) = [] := by
  unfold specMatch
  split
  · rename_i h'; simp at h'; exact absurd h'.1 h
  · rfl

/-! ## Globs -/

/-- A format: a literal text, and conversions each followed by a literal text. -/
def fmtText (lit : List Char) (cs : List (Conv × List Char)) : List Char := lit ++ cs.flatMap fun p => p.1.text ++ p.2

/-- What a glob pattern matches: `*` stands for characters of one path component and `?` for one of them. -/
def globMatches : List Char → List Char → Prop
  | [], w => w = []
  | p :: ps, w =>
    if p = '*' then ∃ u v, w = u ++ v ∧ '/' ∉ u ∧ globMatches ps v
    else if p = '?' then ∃ c v, w = c :: v ∧ c ≠ '/' ∧ globMatches ps v
    else ∃ v, w = p :: v ∧ globMatches ps v

theorem globLoop_lit {lit : List Char} (h : '%' ∉ lit) (rest : List Char) (n : ℕ) (hn : lit.length ≤ n) :
    globLoop n (lit ++ rest) = lit ++ globLoop (n - lit.length) rest := by
  induction lit generalizing n with
  | nil => simp
  | cons d lit ih =>
    obtain ⟨m, rfl⟩ : ∃ m, n = m + 1 := ⟨n - 1, by simp at hn; omega⟩
    rw [List.cons_append, globLoop, specMatch_lit (by intro h'; exact h (by simp [h']))]
    simp only [List.head?_nil]
    rw [ih (fun h' => h (by simp [h'])) m (by simpa using hn)]
    simp

theorem globLoop_convs (cs : List (Conv × List Char)) (hc : ∀ p ∈ cs, p.1.Ok ∧ '%' ∉ p.2) (n : ℕ)
    (hn : (cs.flatMap fun p => p.1.text ++ p.2).length < n) :
    globLoop n (cs.flatMap fun p => p.1.text ++ p.2) = cs.flatMap fun p => '*' :: p.2 := by
  induction cs generalizing n with
  | nil =>
    obtain ⟨m, rfl⟩ : ∃ m, n = m + 1 := ⟨n - 1, by simp at hn; omega⟩
    rfl
  | cons p cs ih =>
    obtain ⟨m, rfl⟩ : ∃ m, n = m + 1 := ⟨n - 1, by omega⟩
    obtain ⟨h1, h2⟩ := hc p (by simp)
    obtain ⟨tl, h⟩ := specMatch_text h1 (p.2 ++ cs.flatMap fun p => p.1.text ++ p.2)
    have ht : ∃ s, p.1.text = '%' :: s := ⟨_, rfl⟩
    obtain ⟨s, hs⟩ := ht
    rw [List.flatMap_cons, List.append_assoc]
    rw [hs, List.cons_append] at h
    have ht := typ_facts h1.typ
    rw [hs, List.cons_append, globLoop, h]
    simp only [List.head?_cons]
    have : p.1.spec.typ ≠ '%' := ht.2.2.2.2.2.2.2.2.2.2
    rw [if_neg this]
    simp only [List.flatMap_cons, List.length_append, hs, List.length_cons] at hn
    rw [globLoop_lit h2 _ _ (by omega), ih (fun q hq => hc q (by simp [hq])) _ (by omega)]
    simp

/-- A format whose conversions all have names becomes the glob with a star for each of them; it matches every text made from the
format by putting texts without slashes in place of the conversions, if the literal parts contain no wildcards. -/
theorem C175_glob_partial (lit : List Char) (cs : List (Conv × List Char)) (hl : '%' ∉ lit) (hc : ∀ p ∈ cs, p.1.Ok ∧ '%' ∉ p.2) :
    formatToGlob (fmtText lit cs) = lit ++ cs.flatMap (fun p => '*' :: p.2) ∧
    ((∀ d ∈ lit, d ≠ '*' ∧ d ≠ '?') → (∀ p ∈ cs, ∀ d ∈ p.2, d ≠ '*' ∧ d ≠ '?') →
      ∀ vals : List (List Char), vals.length = cs.length → (∀ v ∈ vals, '/' ∉ v) →
        globMatches (formatToGlob (fmtText lit cs)) (lit ++ (List.zipWith (fun v p => v ++ p.2) vals cs).flatten)) := by
  have e : formatToGlob (fmtText lit cs) = lit ++ cs.flatMap (fun p => '*' :: p.2) := by
    unfold formatToGlob fmtText
    rw [globLoop_lit hl _ _ (by simp; omega), globLoop_convs cs hc _ (by simp; omega)]
  refine ⟨e, ?_⟩
  rw [e]
  intro h1 h2 vals hlen hv
  have hlit : ∀ (l : List Char) (P W : List Char), (∀ d ∈ l, d ≠ '*' ∧ d ≠ '?') → globMatches P W → globMatches (l ++ P) (l ++ W) := by
    intro l P W hl hm
    induction l with
    | nil => exact hm
    | cons d l ih =>
      obtain ⟨q1, q2⟩ := hl d (by simp)
      rw [List.cons_append, List.cons_append, globMatches, if_neg q1, if_neg q2]
      exact ⟨_, rfl, ih fun d' hd => hl d' (by simp [hd])⟩
  apply hlit lit _ _ h1
  clear e hl hc h1
  induction cs generalizing vals with
  | nil =>
    have : vals = [] := List.length_eq_zero_iff.1 (by simpa using hlen)
    subst this
    simp [globMatches]
  | cons p cs ih =>
    cases vals with
    | nil => simp at hlen
    | cons v vals =>
      simp only [List.flatMap_cons, List.zipWith_cons_cons, List.flatten_cons, List.cons_append, List.append_assoc]
      rw [globMatches, if_pos rfl]
      refine ⟨v, _, rfl, hv v (by simp), ?_⟩
      apply hlit p.2 _ _ (h2 p (by simp))
      exact ih (fun q hq => h2 q (by simp [hq])) vals (by simpa using hlen) fun v' hv' => hv v' (by simp [hv'])

/-- `%(i)03d` meets the conditions. -/
example : Conv.Ok ⟨['i'], ['0'], ['3'], none, 'd'⟩ :=
  ⟨⟨'i', [], rfl, by decide, by simp⟩, by decide, by decide, by simp, by decide⟩

/-- Formats without names are not recognized: `map_%d` becomes the pattern `map_%d`, which does not match the output `map_3`; and
`%%`, which stands for one percent sign, stays double. -/
theorem C175_glob_refuted :
    formatToGlob "map_%d".toList = "map_%d".toList ∧ ¬ globMatches (formatToGlob "map_%d".toList) "map_3".toList ∧
    formatToGlob "%%".toList = "%%".toList ∧ ¬ globMatches (formatToGlob "%%".toList) "%".toList := by
  have e1 : formatToGlob "map_%d".toList = "map_%d".toList := by decide
  have e2 : formatToGlob "%%".toList = "%%".toList := by decide
  refine ⟨e1, ?_, e2, ?_⟩
  · rw [e1]; simp [globMatches]
  · rw [e2]; simp [globMatches]

/-- A value with a slash in it gives a file name that the glob does not match. -/
theorem C175_glob_slash_refuted :
    formatToGlob "%(x)s.fits".toList = "*.fits".toList ∧ ¬ globMatches "*.fits".toList "a/b.fits".toList := by
  refine ⟨by decide, ?_⟩
  intro h
  have h' : ∃ u v, "a/b.fits".toList = u ++ v ∧ '/' ∉ u ∧ v = ".fits".toList := by
    simpa [globMatches] using h
  obtain ⟨u, v, e, hu, rfl⟩ := h'
  have : u = "a/b".toList := by
    have : "a/b.fits".toList = "a/b".toList ++ ".fits".toList := by decide
    rw [this] at e
    exact (List.append_cancel_right e).symm
  rw [this] at hu
  revert hu
  decide

/-! ## Regular expressions -/

/-- How printf pads a number: sign, padding and digits. -/
def printfNum (flags : List Char) (width : ℕ) (neg : Bool) (body : List Char) : List Char :=
  let sign := if neg then ['-'] else if '+' ∈ flags then ['+'] else if ' ' ∈ flags then [' '] else []
  let pad := width - (sign.length + body.length)
  if '-' ∈ flags then sign ++ body ++ List.replicate pad ' '
  else if '0' ∈ flags then sign ++ (List.replicate pad '0' ++ body)
  else List.replicate pad ' ' ++ (sign ++ body)

/-- How printf pads a string. -/
def printfStr (flags : List Char) (width : ℕ) (v : List Char) : List Char :=
  if '-' ∈ flags then v ++ List.replicate (width - v.length) ' ' else List.replicate (width - v.length) ' ' ++ v

/-- The outputs of a conversion: of integers, in base ten, eight or sixteen, with zeros in front if there is a precision; of numbers
with a fractional part; and of strings of one line. -/
inductive Conv.Output (c : Conv) : List Char → Prop
  | int (width k n : ℕ) (neg : Bool) (h : c.typ = 'd' ∨ c.typ = 'i' ∨ c.typ = 'u') :
      Conv.Output c (printfNum c.flags width neg (List.replicate k '0' ++ Nat.toDigits 10 n))
  | oct (width k n : ℕ) (neg : Bool) (h : c.typ = 'o') (h2 : '#' ∉ c.flags) :
      Conv.Output c (printfNum c.flags width neg (List.replicate k '0' ++ Nat.toDigits 8 n))
  | hex (width k n : ℕ) (neg : Bool) (h : c.typ = 'x') (h2 : '#' ∉ c.flags) :
      Conv.Output c (printfNum c.flags width neg (List.replicate k '0' ++ Nat.toDigits 16 n))
  | fixed (width n : ℕ) (neg : Bool) (frac : List Char) (hf : ∀ d ∈ frac, d.isDigit = true) (h : c.typ = 'f') :
      Conv.Output c (printfNum c.flags width neg (Nat.toDigits 10 n ++ '.' :: frac))
  | str (width : ℕ) (v : List Char) (hv : '\n' ∉ v) (h : c.typ = 's') : Conv.Output c (printfStr c.flags width v)

theorem lang_star_sat {p : Char → Bool} {w : List Char} (h : ∀ d ∈ w, p d = true) : (Rx.star (.sat p)).lang w := by
  refine ⟨w.map fun d => [d], ?_, ?_⟩
  · induction w with
    | nil => rfl
    | cons d w ih =>
      rw [List.map_cons, List.flatten_cons, ← ih fun e he => h e (by simp [he])]
      rfl
  · intro u hu
    rw [List.mem_map] at hu
    obtain ⟨d, hd, rfl⟩ := hu
    exact ⟨d, rfl, h d hd⟩

theorem lang_plus_sat {p : Char → Bool} {w : List Char} (h : ∀ d ∈ w, p d = true) (hne : w ≠ []) : (rxPlus (.sat p)).lang w := by
  cases w with
  | nil => exact absurd rfl hne
  | cons d w => exact ⟨[d], w, rfl, ⟨d, rfl, h d (by simp)⟩, lang_star_sat fun e he => h e (by simp [he])⟩

theorem digitChar_lt {b d : ℕ} (hb : b ≤ 16) (hd : d < b) :
    (b ≤ 10 → (Nat.digitChar d).isDigit = true) ∧ (b ≤ 8 → ('0' ≤ Nat.digitChar d && Nat.digitChar d ≤ '7') = true) ∧
    ((Nat.digitChar d).isDigit || ('a' ≤ Nat.digitChar d && Nat.digitChar d ≤ 'f')) = true := by
  have h : ∀ d < 16, (d < 10 → (Nat.digitChar d).isDigit = true) ∧ (d < 8 → ('0' ≤ Nat.digitChar d && Nat.digitChar d ≤ '7') = true) ∧
    ((Nat.digitChar d).isDigit || ('a' ≤ Nat.digitChar d && Nat.digitChar d ≤ 'f')) = true := by decide
  obtain ⟨h1, h2, h3⟩ := h d (by omega)
  exact ⟨fun h => h1 (by omega), fun h => h2 (by omega), h3⟩

theorem toDigitsCore_mem {b : ℕ} (hb : 1 < b) (fuel n : ℕ) (acc : List Char) (p : Char → Prop) (hp : ∀ d < b, p (Nat.digitChar d))
    (ha : ∀ c ∈ acc, p c) : ∀ c ∈ Nat.toDigitsCore b fuel n acc, p c := by
  induction fuel generalizing n acc with
  | zero => simpa [Nat.toDigitsCore] using ha
  | succ fuel ih =>
    rw [Nat.toDigitsCore]
    have hm : p (Nat.digitChar (n % b)) := hp _ (Nat.mod_lt _ (by omega))
    have ha' : ∀ c ∈ Nat.digitChar (n % b) :: acc, p c := by
      intro c hc
      rw [List.mem_cons] at hc
      rcases hc with rfl | hc
      · exact hm
      · exact ha c hc
    split
    · exact ha'
    · exact ih _ _ ha'

theorem toDigits_mem {b : ℕ} (hb : 1 < b) (n : ℕ) (p : Char → Prop) (hp : ∀ d < b, p (Nat.digitChar d)) :
    ∀ c ∈ Nat.toDigits b n, p c := toDigitsCore_mem hb _ _ _ p hp (by simp)

theorem toDigitsCore_ne {b fuel n : ℕ} (acc : List Char) (h : 0 < fuel ∨ acc ≠ []) : Nat.toDigitsCore b fuel n acc ≠ [] := by
  induction fuel generalizing n acc with
  | zero => simpa [Nat.toDigitsCore] using h
  | succ fuel ih =>
    rw [Nat.toDigitsCore]
    split
    · simp
    · exact ih _ (Or.inr (by simp))

theorem toDigits_ne (b n : ℕ) : Nat.toDigits b n ≠ [] := toDigitsCore_ne _ (Or.inl (by omega))

theorem lang_num {sp : FmtSpec} {num : Rx} (h1 : sp.prec ≠ some ['.', '*']) (h2 : sp.typ ≠ '%') (h3 : sp.typ ≠ 's')
    (hn : rxNum sp = some (num, none)) (width : ℕ) (neg : Bool) (body : List Char)
    (hb : ∀ k, num.lang (List.replicate k '0' ++ body)) :
    ∃ r, rxSpec sp = some r ∧ r.lang (printfNum sp.flags width neg body) := by
  unfold rxSpec
  rw [if_neg h1, if_neg h2, if_neg h3]
  simp only [hn]
  refine ⟨_, rfl, ?_⟩
  unfold printfNum
  simp only []
  generalize hS : (if neg then ['-'] else if '+' ∈ sp.flags then ['+'] else if ' ' ∈ sp.flags then [' '] else []) = sign
  have hsign : (if '+' ∈ sp.flags then Rx.sat fun c => c == '+' || c == '-'
      else if ' ' ∈ sp.flags then Rx.sat fun c => c == ' ' || c == '-' else rxOpt (rxc '-')).lang sign := by
    rw [← hS]
    by_cases hp : '+' ∈ sp.flags
    · rw [if_pos hp]
      cases neg
      · exact ⟨'+', by simp [hp], by decide⟩
      · exact ⟨'-', by simp, by decide⟩
    · rw [if_neg hp]
      by_cases hs : ' ' ∈ sp.flags
      · rw [if_pos hs]
        cases neg
        · exact ⟨' ', by simp [hp, hs], by decide⟩
        · exact ⟨'-', by simp, by decide⟩
      · rw [if_neg hs]
        cases neg
        · exact Or.inr (by simp [Rx.lang, hp, hs])
        · exact Or.inl ⟨'-', by simp, by decide⟩
  have hsp : ∀ (c : Char) (k : ℕ), (Rx.star (rxc c)).lang (List.replicate k c) := by
    intro c k
    apply lang_star_sat
    intro d hd
    rw [List.eq_of_mem_replicate hd]
    simp
  have hnil : ∀ c : Char, (Rx.star (rxc c)).lang [] := fun c => hsp c 0
  by_cases hm : '-' ∈ sp.flags
  · simp only [if_pos hm]
    exact ⟨[], _, (List.nil_append _).symm, rfl, sign ++ body, _, rfl, ⟨sign, body, rfl, hsign, hb 0⟩, hsp _ _⟩
  · simp only [if_neg hm]
    by_cases h0 : '0' ∈ sp.flags
    · simp only [if_pos h0]
      exact ⟨[], _, (List.nil_append _).symm, hnil _, _, [], (List.append_nil _).symm, ⟨sign, _, rfl, hsign, hb _⟩, rfl⟩
    · simp only [if_neg h0]
      exact ⟨_, _, rfl, hsp _ _, _, [], (List.append_nil _).symm, ⟨sign, body, rfl, hsign, hb 0⟩, rfl⟩

theorem replicate_zeros_mem (p : Char → Bool) (h0 : p '0' = true) {k : ℕ} {l : List Char} (h : ∀ c ∈ l, p c = true) :
    ∀ c ∈ List.replicate k '0' ++ l, p c = true := by
  intro c hc
  rw [List.mem_append] at hc
  rcases hc with hc | hc
  · rw [List.eq_of_mem_replicate hc]; exact h0
  · exact h c hc

theorem rxSpec_output {c : Conv} (hc : c.Ok) {w : List Char} (hw : c.Output w) : ∃ r, rxSpec c.spec = some r ∧ r.lang w := by
  have h1 : c.spec.prec ≠ some ['.', '*'] := by
    intro h
    unfold Conv.spec at h
    simp only [Option.map_eq_some_iff, List.cons.injEq, true_and] at h
    obtain ⟨p, hp, rfl⟩ := h
    have := (hc.prec _ hp).2 '*' (by simp)
    revert this
    decide
  have h0 : c.spec.prec ≠ some ['0'] := by
    intro h
    unfold Conv.spec at h
    simp only [Option.map_eq_some_iff, List.cons.injEq] at h
    obtain ⟨p, _, h', _⟩ := h
    revert h'
    decide
  have ht : c.spec.typ = c.typ := rfl
  have hf : c.spec.flags = c.flags := rfl
  cases hw with
  | int width k n neg h =>
    have hn : rxNum c.spec = some (rxPlus rxDigit, none) := by
      unfold rxNum
      rw [if_pos (by rw [ht]; tauto)]
    rw [← hf]
    apply lang_num h1 (by rw [ht]; rcases h with h | h | h <;> rw [h] <;> decide)
      (by rw [ht]; rcases h with h | h | h <;> rw [h] <;> decide) hn
    intro k'
    apply lang_plus_sat
    · refine replicate_zeros_mem Char.isDigit (by decide) ?_
      refine replicate_zeros_mem Char.isDigit (by decide) ?_
      exact toDigits_mem (by norm_num) n _ fun d hd => (digitChar_lt (by norm_num) hd).1 (by norm_num)
    · simp
  | oct width k n neg h =>
    have hn : rxNum c.spec = some (rxPlus (.sat fun c => '0' ≤ c && c ≤ '7'), none) := by
      unfold rxNum
      rw [ht, h]
      simp
    rw [← hf]
    apply lang_num h1 (by rw [ht, h]; decide) (by rw [ht, h]; decide) hn
    intro k'
    apply lang_plus_sat
    · refine replicate_zeros_mem (fun c => '0' ≤ c && c ≤ '7') (by decide) ?_
      refine replicate_zeros_mem (fun c => '0' ≤ c && c ≤ '7') (by decide) ?_
      exact toDigits_mem (by norm_num) n _ fun d hd => (digitChar_lt (by norm_num) hd).2.1 (by norm_num)
    · simp
  | hex width k n neg h =>
    have hn : rxNum c.spec = some (rxPlus (.sat fun c => c.isDigit || ('a' ≤ c && c ≤ 'f')), none) := by
      unfold rxNum
      rw [ht, h]
      simp
    rw [← hf]
    apply lang_num h1 (by rw [ht, h]; decide) (by rw [ht, h]; decide) hn
    intro k'
    apply lang_plus_sat
    · refine replicate_zeros_mem (fun c => c.isDigit || ('a' ≤ c && c ≤ 'f')) (by decide) ?_
      refine replicate_zeros_mem (fun c => c.isDigit || ('a' ≤ c && c ≤ 'f')) (by decide) ?_
      exact toDigits_mem (by norm_num) n _ fun d hd => (digitChar_lt (by norm_num) hd).2.2
    · simp
  | fixed width n neg frac hfr h =>
    have hn : rxNum c.spec = some (.seq (rxPlus rxDigit) (.seq (rxc '.') (.star rxDigit)), none) := by
      unfold rxNum
      rw [ht, h]
      simp [h0]
    rw [← hf]
    apply lang_num h1 (by rw [ht, h]; decide) (by rw [ht, h]; decide) hn
    intro k'
    refine ⟨List.replicate k' '0' ++ Nat.toDigits 10 n, '.' :: frac, by simp, ?_, ['.'], frac, rfl, ⟨'.', rfl, by decide⟩, lang_star_sat hfr⟩
    apply lang_plus_sat
    · refine replicate_zeros_mem Char.isDigit (by decide) ?_
      exact toDigits_mem (by norm_num) n _ fun d hd => (digitChar_lt (by norm_num) hd).1 (by norm_num)
    · simp
  | str width v hv h =>
    unfold rxSpec
    rw [if_neg h1, ht, h, if_neg (by decide), if_pos rfl, hf]
    have hs : ∀ k : ℕ, (Rx.star (rxc ' ')).lang (List.replicate k ' ') := by
      intro k
      apply lang_star_sat
      intro d hd
      rw [List.eq_of_mem_replicate hd]
      simp
    have ha : (Rx.star rxAny).lang v := by
      apply lang_star_sat
      intro d hd
      have : d ≠ '\n' := by rintro rfl; exact hv hd
      simpa using this
    unfold printfStr
    by_cases hm : '-' ∈ c.flags
    · simp only [if_pos hm]
      exact ⟨_, rfl, _, _, rfl, ha, hs _⟩
    · simp only [if_neg hm]
      exact ⟨_, rfl, _, _, rfl, hs _, ha⟩

theorem takeWhile_lit {lit rest : List Char} (h : '%' ∉ lit) (hr : ∀ d ∈ rest.head?, d = '%') :
    (lit ++ rest).takeWhile (· != '%') = lit ∧ (lit ++ rest).dropWhile (· != '%') = rest := by
  induction lit with
  | nil =>
    cases rest with
    | nil => simp
    | cons d rest =>
      have := hr d (by simp)
      subst this
      simp
  | cons d lit ih =>
    obtain ⟨i1, i2⟩ := ih fun h' => h (by simp [h'])
    have hd : (d != '%') = true := by
      simp only [bne_iff_ne]
      rintro rfl
      exact h (by simp)
    constructor
    · rw [List.cons_append, List.takeWhile_cons, if_pos hd, i1]
    · rw [List.cons_append, List.dropWhile_cons, if_pos hd, i2]

theorem convs_head (cs : List (Conv × List Char)) : ∀ d ∈ (cs.flatMap fun p => p.1.text ++ p.2).head?, d = '%' := by
  intro d hd
  cases cs with
  | nil => simp at hd
  | cons p cs =>
    rw [List.flatMap_cons] at hd
    have : p.1.text = '%' :: ('(' :: p.1.name ++ ')' :: p.1.flags ++ p.1.width ++ (match p.1.prec with
      | none => []
      | some p => '.' :: p) ++ [p.1.typ]) := rfl
    rw [this] at hd
    simp at hd
    exact hd.symm

theorem foldr_lang_append {A B : List Rx} {u v : List Char} (ha : (A.foldr Rx.seq Rx.eps).lang u) (hb : (B.foldr Rx.seq Rx.eps).lang v) :
    ((A ++ B).foldr Rx.seq Rx.eps).lang (u ++ v) := by
  induction A generalizing u with
  | nil =>
    have : u = [] := ha
    subst this
    exact hb
  | cons a A ih =>
    obtain ⟨x, y, rfl, h1, h2⟩ := ha
    exact ⟨x, y ++ v, by simp, h1, ih h2⟩

theorem foldr_lang_lit (lit : List Char) : ((lit.map rxc).foldr Rx.seq Rx.eps).lang lit := by
  induction lit with
  | nil => rfl
  | cons d lit ih => exact ⟨[d], lit, rfl, ⟨d, rfl, by simp⟩, ih⟩

/-- A format with at least one conversion, all of them with names and of the types d, i, u, o, x (without `#`), f or s, becomes a
regular expression that matches every output of the format, with any flags, width and precision. -/
theorem C175_regex_partial (lit : List Char) (cs : List (Conv × List Char)) (hne : cs ≠ []) (hl : '%' ∉ lit)
    (hc : ∀ p ∈ cs, p.1.Ok ∧ '%' ∉ p.2) (vals : List (List Char)) (hv : List.Forall₂ (fun v p => Conv.Output p.1 v) vals cs) :
    ∃ r, formatToRegex (fmtText lit cs) = some r ∧ r.lang (lit ++ (List.zipWith (fun v p => v ++ p.2) vals cs).flatten) := by
  have main : ∀ (cs : List (Conv × List Char)) (lit : List Char) (vals : List (List Char)) (n : ℕ), cs ≠ [] → '%' ∉ lit →
      (∀ p ∈ cs, p.1.Ok ∧ '%' ∉ p.2) → List.Forall₂ (fun v p => Conv.Output p.1 v) vals cs → (fmtText lit cs).length < n →
      ∃ L, regexLoop n (fmtText lit cs) = some L ∧
        (L.foldr Rx.seq Rx.eps).lang (lit ++ (List.zipWith (fun v p => v ++ p.2) vals cs).flatten) := by
    intro cs
    induction cs with
    | nil => intro _ _ _ h; exact absurd rfl h
    | cons p cs ih =>
      intro lit vals n _ hl hc hv hn
      obtain ⟨m, rfl⟩ : ∃ m, n = m + 1 := ⟨n - 1, by omega⟩
      cases hv with
      | cons hv1 hv2 =>
        rename_i v vals
        obtain ⟨h1, h2⟩ := hc p (by simp)
        obtain ⟨r, hr1, hr2⟩ := rxSpec_output h1 hv1
        obtain ⟨tl, hsm⟩ := specMatch_text h1 (p.2 ++ cs.flatMap fun p => p.1.text ++ p.2)
        have htw := takeWhile_lit (rest := (p :: cs).flatMap fun p => p.1.text ++ p.2) hl (convs_head (p :: cs))
        have hpost := takeWhile_lit (rest := cs.flatMap fun p => p.1.text ++ p.2) h2 (convs_head cs)
        have hne : fmtText lit (p :: cs) ≠ [] := by
          unfold fmtText Conv.text
          simp
        obtain ⟨d, s, hds⟩ := List.exists_cons_of_ne_nil hne
        have htail : ∃ L, regexLoop m (cs.flatMap fun p => p.1.text ++ p.2) = some L ∧
            (L.foldr Rx.seq Rx.eps).lang (List.zipWith (fun v p => v ++ p.2) vals cs).flatten := by
          cases cs with
          | nil =>
            cases hv2
            refine ⟨[], ?_, rfl⟩
            cases m <;> rfl
          | cons q cs =>
            have hlen : (fmtText [] (q :: cs)).length < m := by
              have hp : 0 < p.1.text.length := by unfold Conv.text; simp
              unfold fmtText at hn ⊢
              rw [List.flatMap_cons] at hn
              simp only [List.length_append, List.nil_append] at hn ⊢
              omega
            have := ih [] vals m (by simp) (by simp) (fun q hq => hc q (by simp [hq])) hv2 hlen
            simpa [fmtText] using this
        obtain ⟨L, hL1, hL2⟩ := htail
        refine ⟨lit.map rxc ++ [r] ++ p.2.map rxc ++ L, ?_, ?_⟩
        · rw [hds, regexLoop, ← hds]
          simp only [fmtText]
          rw [htw.1, htw.2, List.flatMap_cons, List.append_assoc, hsm]
          simp only [List.head?_cons, hr1, hpost.1, hpost.2, hL1, Option.bind_eq_bind, Option.bind_some]
        · have : lit ++ (List.zipWith (fun v p => v ++ p.2) (v :: vals) (p :: cs)).flatten =
              (lit ++ v ++ p.2) ++ (List.zipWith (fun v p => v ++ p.2) vals cs).flatten := by simp
          rw [this]
          refine foldr_lang_append (foldr_lang_append (foldr_lang_append (foldr_lang_lit lit) ?_) (foldr_lang_lit p.2)) hL2
          exact ⟨v, [], by simp, hr2, rfl⟩
  obtain ⟨L, h1, h2⟩ := main cs lit vals _ hne hl hc hv (Nat.lt_succ_self _)
  exact ⟨_, by rw [formatToRegex, h1]; rfl, h2⟩

/-- `a%(i)03d.b` with the value -7 gives `a-07.b`. -/
example : ∃ r, formatToRegex (fmtText ['a'] [(⟨['i'], ['0'], ['3'], none, 'd'⟩, ['.', 'b'])]) = some r ∧
    r.lang (['a'] ++ (List.zipWith (fun v (p : Conv × List Char) => v ++ p.2) [printfNum ['0'] 3 true (List.replicate 0 '0' ++ Nat.toDigits 10 7)]
      [(⟨['i'], ['0'], ['3'], none, 'd'⟩, ['.', 'b'])]).flatten) :=
  C175_regex_partial ['a'] [(⟨['i'], ['0'], ['3'], none, 'd'⟩, ['.', 'b'])] (by simp) (by decide)
    (by
      intro p hp
      simp at hp
      subst hp
      exact ⟨⟨⟨'i', [], rfl, by decide, by simp⟩, by decide, by decide, by simp, by decide⟩, by decide⟩)
    _ (.cons (.int 3 0 7 true (Or.inl rfl)) .nil)

example : printfNum ['0'] 3 true (List.replicate 0 '0' ++ Nat.toDigits 10 7) = ['-', '0', '7'] := by decide

/-- A regular expression all of whose matches satisfy a condition on characters. -/
theorem lang_star_all {p q : Char → Bool} (hpq : ∀ c, p c = true → q c = true) {w : List Char} (h : (Rx.star (.sat p)).lang w) :
    ∀ c ∈ w, q c = true := by
  obtain ⟨ws, rfl, h⟩ := h
  intro c hc
  rw [List.mem_flatten] at hc
  obtain ⟨u, hu, hcu⟩ := hc
  obtain ⟨d, rfl, hd⟩ := h u hu
  rw [List.mem_singleton] at hcu
  rw [hcu]
  exact hpq d hd

theorem lang_plus_all {p q : Char → Bool} (hpq : ∀ c, p c = true → q c = true) {w : List Char} (h : (rxPlus (.sat p)).lang w) :
    ∀ c ∈ w, q c = true := by
  obtain ⟨u, v, rfl, ⟨d, rfl, hd⟩, h2⟩ := h
  intro c hc
  rw [List.mem_append, List.mem_singleton] at hc
  rcases hc with rfl | hc
  · exact hpq c hd
  · exact lang_star_all hpq h2 c hc

/-- Formats without names are copied as they are: the expression made from `%d` does not match the output `3`. -/
theorem C175_regex_refuted : ∃ r, formatToRegex "%d".toList = some r ∧ ¬ r.lang "3".toList ∧ r.lang "%d".toList := by
  refine ⟨.seq (rxc '%') (.seq (rxc 'd') .eps), ?_, ?_, ?_⟩
  · have : regexLoop 3 ['%', 'd'] = some [rxc '%', rxc 'd'] := by
      simp [regexLoop, specMatch, nameAlts, rxRaw]
    show (regexLoop 3 ['%', 'd']).map _ = _
    rw [this]
    rfl
  · rintro ⟨u, v, e, ⟨c, rfl, hc⟩, _⟩
    have e' : (['3'] : List Char) = [c] ++ v := e
    simp at e' hc
    rw [hc] at e'
    revert e'
    simp
  · exact ⟨['%'], ['d'], rfl, ⟨'%', rfl, by decide⟩, ['d'], [], rfl, ⟨'d', rfl, by decide⟩, rfl⟩

/-- The expression made from `%(x).0f` matches only texts with a period, and not the output `3`. -/
theorem C175_regex_f0_refuted (w : List Char) :
    ∃ r, rxSpec (Conv.spec ⟨['x'], [], [], some ['0'], 'f'⟩) = some r ∧ (r.lang w → '.' ∈ w) ∧ ¬ r.lang "3".toList := by
  have key : ∀ w, (Rx.seq (.star (rxc ' ')) (.seq (.seq (rxOpt (rxc '-')) (.seq (rxPlus rxDigit) (.seq (rxc '.') (.star rxDigit)))) .eps)).lang w →
      '.' ∈ w := by
    rintro w ⟨_, _, rfl, _, _, _, rfl, ⟨_, _, rfl, _, _, _, rfl, _, _, _, rfl, ⟨c, rfl, hc⟩, _⟩, _⟩
    simp at hc
    subst hc
    simp
  refine ⟨_, rfl, key w, fun h => ?_⟩
  have := key _ h
  revert this
  decide

/-- The expression made from `%(x)g` does not match the outputs `1e+20` (there is no period before the exponent) and `-1.5e-07` (the
sign belongs to the other branch of the alternative). -/
theorem C175_regex_g_refuted :
    ∃ r, rxSpec (Conv.spec ⟨['x'], [], [], none, 'g'⟩) = some r ∧ ¬ r.lang "1e+20".toList ∧ ¬ r.lang "-1.5e-07".toList := by
  have q1 : ∀ c : Char, (c == ' ') = true → (c != 'e') = true := by
    intro c hc; simp at hc; subst hc; decide
  have q2 : ∀ c : Char, c.isDigit = true → (c != 'e') = true := by
    intro c hc
    by_contra h
    simp at h
    subst h
    revert hc
    decide
  have q1' : ∀ c : Char, (c == ' ') = true → (c != '-') = true := by
    intro c hc; simp at hc; subst hc; decide
  have q2' : ∀ c : Char, c.isDigit = true → (c != '-') = true := by
    intro c hc
    by_contra h
    simp at h
    subst h
    revert hc
    decide
  have first : ∀ w, (Rx.seq (rxOpt (rxc '-')) (.seq (rxPlus rxDigit) (rxOpt (.seq (rxc '.') (.star rxDigit))))).lang w → 'e' ∉ w := by
    rintro w ⟨s, _, rfl, hs, d, o, rfl, hd, ho⟩ he
    rw [List.mem_append, List.mem_append] at he
    rcases he with he | he | he
    · rcases hs with ⟨c, rfl, hc⟩ | hs
      · simp at hc he; subst hc; revert he; decide
      · have : s = [] := hs
        subst this; simp at he
    · have := lang_plus_all q2 hd _ he
      revert this; decide
    · rcases ho with ⟨_, f, rfl, ⟨c, rfl, hc⟩, hf⟩ | ho
      · rw [List.mem_append] at he
        rcases he with he | he
        · simp at hc he; subst hc; revert he; decide
        · have := lang_star_all q2 hf _ he
          revert this; decide
      · have : o = [] := ho
        subst this; simp at he
  have second : ∀ w, (rxExp 'e').lang w → '.' ∈ w ∧ ∀ d ∈ w.head?, d ≠ '-' := by
    rintro w ⟨a, _, rfl, ha, _, _, rfl, ⟨c, rfl, hc⟩, _⟩
    simp at hc
    subst hc
    refine ⟨by simp, ?_⟩
    intro d hd
    obtain ⟨_, _, rfl, ⟨e, rfl, he⟩, _⟩ := ha
    simp at hd
    subst hd
    have := q2' e he
    simpa using this
  have strip : ∀ (x : Char) (w u v : List Char), x ≠ ' ' → x :: w = u ++ v → (Rx.star (rxc ' ')).lang u → u = [] ∧ v = x :: w := by
    intro x w u v hx e hu
    cases u with
    | nil => exact ⟨rfl, e.symm⟩
    | cons y u =>
      have := lang_star_all (q := fun c => c == ' ') (fun c h => h) hu y (by simp)
      simp at this e
      exact absurd (e.1.trans this) hx
  refine ⟨_, rfl, ?_, ?_⟩
  · rintro ⟨u, v, e, hu, y, z, rfl, hy, hz⟩
    have hz' : z = [] := hz
    subst hz'
    rw [List.append_nil] at e
    obtain ⟨_, rfl⟩ := strip '1' "e+20".toList u y (by decide) e hu
    rcases hy with hy | hy
    · exact first _ hy (by decide)
    · have := (second _ hy).1
      revert this; decide
  · rintro ⟨u, v, e, hu, y, z, rfl, hy, hz⟩
    have hz' : z = [] := hz
    subst hz'
    rw [List.append_nil] at e
    obtain ⟨_, rfl⟩ := strip '-' "1.5e-07".toList u y (by decide) e hu
    rcases hy with hy | hy
    · exact first _ hy (by decide)
    · exact (second _ hy).2 '-' (by decide) rfl

/-- `%(x)F` fails instead of giving an expression, and a format without conversions is not escaped: `a.b` also matches `axb`. -/
theorem C175_regex_other_refuted : rxSpec (Conv.spec ⟨['x'], [], [], none, 'F'⟩) = none ∧
    ∃ r, formatToRegex "a.b".toList = some r ∧ r.lang "axb".toList := by
  refine ⟨rfl, .seq (rxc 'a') (.seq rxAny (.seq (rxc 'b') .eps)), ?_, ?_⟩
  · have : regexLoop 4 ['a', '.', 'b'] = some [rxc 'a', rxAny, rxc 'b'] := by
      simp [regexLoop, specMatch, rxRaw]
    show (regexLoop 4 ['a', '.', 'b']).map _ = _
    rw [this]
    rfl
  · exact ⟨['a'], ['x', 'b'], rfl, ⟨'a', rfl, by decide⟩, ['x'], ['b'], rfl, ⟨'x', rfl, by decide⟩, ['b'], [], rfl, ⟨'b', rfl, by decide⟩, rfl⟩

end Pixell
