import Verif.Lemmas.VersionText

/-!
# C97-C99: version strings

`pyotf.__version__` names the source the package was built from.
-/

namespace PyOTF.Version

/-- The first program of the list that exists ran successfully and printed `s` (up to white space around it). -/
def Answers (l : List Launch) (s : Str) : Prop :=
  ∃ pre out post, l = pre ++ .ran 0 out :: post ∧ (∀ x ∈ pre, x = Launch.notFound) ∧ strip out = s

theorem runCommand_answers {l : List Launch} {s : Str} (h : Answers l s) : runCommand l = (some s, some 0) := by
  obtain ⟨pre, out, post, rfl, hp, rfl⟩ := h
  induction pre with
  | nil => simp [runCommand]
  | cons x pre ih =>
    rw [hp x (List.mem_cons_self ..), List.cons_append, runCommand]
    exact ih fun y hy => hp y (List.mem_cons_of_mem _ hy)

theorem answers_iff (l : List Launch) (s : Str) : runCommand l = (some s, some 0) ↔ Answers l s := by
  refine ⟨fun h => ?_, runCommand_answers⟩
  induction l with
  | nil => simp [runCommand] at h
  | cons x l ih =>
    cases x with
    | notFound =>
      obtain ⟨pre, out, post, rfl, hp, e⟩ := ih h
      exact ⟨.notFound :: pre, out, post, rfl, by simpa using hp, e⟩
    | failed => simp [runCommand] at h
    | ran rc out =>
      simp only [runCommand] at h
      split_ifs at h with hrc
      · simp at h
      · simp only [ne_eq, not_not] at hrc
        subst hrc
        simp only [Prod.mk.injEq, Option.some.injEq, and_true] at h
        exact ⟨[], out, l, rfl, by simp, h⟩

theorem runCommand_some {l : List Launch} {s : Str} (h : (runCommand l).1 = some s) : runCommand l = (some s, some 0) := by
  induction l with
  | nil => simp [runCommand] at h
  | cons x l ih =>
    cases x with
    | notFound => exact ih h
    | failed => simp [runCommand] at h
    | ran rc out =>
      simp only [runCommand] at h ⊢
      split_ifs at h ⊢ with hrc
      simp only [ne_eq, not_not] at hrc
      simp only at h
      rw [h, hrc]

theorem Answers.strip {l : List Launch} {s : Str} (h : Answers l s) : Version.strip s = s := by
  obtain ⟨_, o, _, _, _, rfl⟩ := h; exact strip_strip o

/-- What `git describe --long --dirty` prints for a tag, a distance and a commit. -/
def describeOut (tag : Str) (n : ℕ) (hex : Str) (dirty : Bool) : Str :=
  tag ++ str "-" ++ decimal n ++ str "-g" ++ hex ++ if dirty then str "-dirty" else []

theorem describeParts_decimal {tag hex : Str} (n : ℕ) (ht : tag ≠ []) (h1 : '\n' ∉ tag) (hh : hex ≠ []) (hx : ∀ c ∈ hex, isHex c = true) :
    DescribeParts tag (decimal n) hex := ⟨ht, h1, decimal_ne_nil n, decimal_digits n, hh, hx⟩

theorem endsWith_dirty {tag num hex : Str} (h : DescribeParts tag num hex) (dirty : Bool) :
    endsWith (str "-dirty") (describeText tag num hex ++ if dirty then str "-dirty" else []) = dirty := by
  cases dirty with
  | true => rw [if_pos rfl, endsWith_iff]; exact ⟨_, rfl⟩
  | false =>
    rw [if_neg (by simp), List.append_nil, Bool.eq_false_iff, ne_eq, endsWith_iff]
    rintro ⟨t, ht⟩
    obtain ⟨c, hc, hl⟩ := hex_last h
    rw [ht] at hl
    have : c = 'y' := by
      have e : (t ++ str "-dirty").getLast? = some 'y' := by simp [str]
      rw [e] at hl; exact (Option.some.inj hl).symm
    subst this
    exact absurd hc (by decide)

theorem take_dirty (a : Str) (dirty : Bool) :
    (if dirty then (a ++ if dirty then str "-dirty" else []).take ((a ++ if dirty then str "-dirty" else []).length - 6)
      else a ++ if dirty then str "-dirty" else []) = a := by
  cases dirty with
  | true => simp [str]
  | false => simp

/-- C97: in a checkout git describes as `TAG-NUM-gHEX[-dirty]` (the tag may contain hyphens), the tag starting with the prefix, the pieces are the tag
without the prefix, the number, the abbreviated commit and the dirty flag; and the style `git-describe-long` prints the description again. -/
theorem C97_described (tagPrefix tag : Str) (n : ℕ) (hex : Str) (dirty : Bool) (full date : Str) (g : Git)
    (ht : tagPrefix ++ tag ≠ []) (h1 : '\n' ∉ tagPrefix ++ tag) (hh : hex ≠ []) (hx : ∀ c ∈ hex, isHex c = true)
    (hdir : ∃ s, Answers g.gitDir s) (hdesc : Answers g.describe (describeOut (tagPrefix ++ tag) n hex dirty))
    (hhead : Answers g.head full) (hdate : Answers g.date date) :
    gitPiecesFromVcs tagPrefix g = .ok ⟨full, hex, none, dirty, some (some tag), some n, some (isoDate date)⟩ ∧
    (tag ≠ [] → (render ⟨full, hex, none, dirty, some (some tag), some n, some (isoDate date)⟩ (str "git-describe-long")) =
      .ok ⟨describeOut tag n hex dirty, some full, some dirty, none, some (isoDate date)⟩) := by
  have hp := describeParts_decimal n ht h1 hh hx
  constructor
  · obtain ⟨s, hs⟩ := hdir
    have e : describeOut (tagPrefix ++ tag) n hex dirty =
      describeText (tagPrefix ++ tag) (decimal n) hex ++ if dirty then str "-dirty" else [] := by simp [describeOut, describeText]
    have m : '-' ∈ describeText (tagPrefix ++ tag) (decimal n) hex := by simp [describeText, str]
    simp only [gitPiecesFromVcs, runCommand_answers hs, runCommand_answers hdesc, runCommand_answers hhead, runCommand_answers hdate,
      hdesc.strip, hhead.strip, hdate.strip, bind, Except.bind, pure, Except.pure, ne_eq, not_true_eq_false, if_false]
    rw [e, endsWith_dirty hp, take_dirty, if_pos m, matchDescribe_text hp]
    have : startsWith tagPrefix (tagPrefix ++ tag) = true := (startsWith_iff _ _).mpr ⟨_, rfl⟩
    simp [this, decimalValue_decimal]
  · intro htag
    obtain ⟨c, l, rfl⟩ := List.exists_cons_of_ne_nil htag
    cases dirty <;> rfl

/-- The part of `git_pieces_from_vcs` after git has answered the first three questions. -/
theorem pieces_run {tagPrefix : Str} {g : Git} {d full : Str} (hdir : ∃ s, Answers g.gitDir s) (hdesc : Answers g.describe d)
    (hhead : Answers g.head full) (dirty : Bool) (hd : dirty = endsWith (str "-dirty") d) (base : Str)
    (hb : base = if dirty then d.take (d.length - 6) else d) :
    gitPiecesFromVcs tagPrefix g =
      if '-' ∈ base then
        match matchDescribe base with
        | none => .ok ⟨full, full.take 7, some (str "unable to parse git-describe output: '" ++ d ++ str "'"), dirty, none, none, none⟩
        | some (t, num, hex) =>
          if startsWith tagPrefix t then
            match (runCommand g.date).1 with
            | some s => .ok ⟨full, hex, none, dirty, some (some (t.drop tagPrefix.length)), some (decimalValue num), some (isoDate s)⟩
            | none => .error .attributeError
          else .ok ⟨full, full.take 7, some (str "tag '" ++ t ++ str "' doesn't start with prefix '" ++ tagPrefix ++ str "'"), dirty, none,
            none, none⟩
      else
        match (runCommand g.count).1 with
        | none => .error .typeError
        | some c =>
          match pyInt c with
          | .error e => .error e
          | .ok n =>
            match (runCommand g.date).1 with
            | some s => .ok ⟨full, full.take 7, none, dirty, some none, some n, some (isoDate s)⟩
            | none => .error .attributeError := by
  obtain ⟨s, hs⟩ := hdir
  have hst : ∀ t, (runCommand g.date).1 = some t → strip t = t := fun t h => ((answers_iff _ _).mp (runCommand_some h)).strip
  simp only [gitPiecesFromVcs, runCommand_answers hs, runCommand_answers hdesc, runCommand_answers hhead,
      hdesc.strip, hhead.strip, bind, Except.bind, pure, Except.pure, ne_eq, not_true_eq_false, if_false, ← hd, ← hb]
  by_cases hm : '-' ∈ base
  · rw [if_pos hm, if_pos hm]
    rcases matchDescribe base with _ | ⟨t, num, hex⟩
    · rfl
    · by_cases hp : startsWith tagPrefix t = true
      · simp only [hp, Bool.not_true, Bool.false_eq_true, if_false, if_true]
        rcases hdt : (runCommand g.date).1 with _ | t'
        · rfl
        · simp only [hst _ hdt]
      · rw [Bool.not_eq_true] at hp
        simp only [hp, Bool.not_false, Bool.false_eq_true, if_false, if_true]
  · rw [if_neg hm, if_neg hm]
    rcases (runCommand g.count).1 with _ | c
    · rfl
    · simp only
      rcases pyInt c with e | n
      · rfl
      · simp only
        rcases hdt : (runCommand g.date).1 with _ | t'
        · rfl
        · simp only [hst _ hdt]

theorem strip_decimal (n : ℕ) : strip (decimal n) = decimal n := by
  have key : ∀ c ∈ decimal n, isSpace c = false := by
    intro c hc
    have := decimal_digits n c hc
    by_contra h
    rw [Bool.not_eq_false] at h
    simp only [isSpace, Bool.or_eq_true, decide_eq_true_eq] at h
    rcases h with ((((rfl | rfl) | rfl) | rfl) | rfl) | rfl <;> revert this <;> decide
  refine stripP_eq_self ⟨fun c hc => key c (List.mem_of_mem_head? hc), fun c hc => key c (List.mem_of_getLast? hc)⟩

theorem pyInt_decimal (n : ℕ) : pyInt (decimal n) = .ok n := by
  unfold pyInt
  simp only [strip_decimal]
  rw [if_pos ⟨decimal_ne_nil n, List.all_eq_true.mpr (decimal_digits n)⟩, decimalValue_decimal]

/-- C97: without a matching tag git prints the commit only; the pieces are: no tag, the number of commits, seven digits of the commit. -/
theorem C97_untagged (tagPrefix hex : Str) (n : ℕ) (dirty : Bool) (full date : Str) (g : Git) (hx : ∀ c ∈ hex, isHex c = true)
    (hdir : ∃ s, Answers g.gitDir s) (hdesc : Answers g.describe (hex ++ if dirty then str "-dirty" else []))
    (hhead : Answers g.head full) (hcount : Answers g.count (decimal n)) (hdate : Answers g.date date) :
    gitPiecesFromVcs tagPrefix g = .ok ⟨full, full.take 7, none, dirty, some none, some n, some (isoDate date)⟩ := by
  have hm : '-' ∉ hex := fun h => absurd (hx _ h) (by decide)
  have hdirty : dirty = endsWith (str "-dirty") (hex ++ if dirty then str "-dirty" else []) := by
    cases dirty with
    | true => symm; rw [if_pos rfl, endsWith_iff]; exact ⟨_, rfl⟩
    | false =>
      symm
      rw [if_neg (by simp), List.append_nil, Bool.eq_false_iff, ne_eq, endsWith_iff]
      rintro ⟨t, rfl⟩
      exact hm (by simp [str])
  rw [pieces_run hdir hdesc hhead dirty hdirty hex (take_dirty hex dirty).symm, if_neg hm, runCommand_answers hcount, runCommand_answers hdate]
  simp only [pyInt_decimal]

/-- C97: a tag is never invented: whenever the pieces name a tag, git described the checkout with that tag (and the prefix), followed by the number
and the commit of the pieces. -/
theorem C97_tag_is_genuine (tagPrefix : Str) (g : Git) (d : Str) (hd : Answers g.describe d) (p : Pieces) (hp : gitPiecesFromVcs tagPrefix g = .ok p)
    (t : Str) (ht : p.closestTag = some (some t)) : ∃ num post, (∀ c ∈ num, isDigit c = true) ∧ p.distance = some (decimalValue num) ∧
      (post = [] ∨ post = ['\n']) ∧ p.error = none ∧
      d = tagPrefix ++ t ++ str "-" ++ num ++ str "-g" ++ p.short ++ post ++ if p.dirty then str "-dirty" else [] := by
  have hdir : ∃ s, Answers g.gitDir s := by
    by_contra hc
    unfold gitPiecesFromVcs at hp
    have : (runCommand g.gitDir).2 ≠ some 0 := by
      intro h0
      rcases h1 : (runCommand g.gitDir).1 with _ | s
      · have : ∀ l : List Launch, (runCommand l).1 = none → (runCommand l).2 ≠ some 0 := by
          intro l
          induction l with
          | nil => simp [runCommand]
          | cons x l ih =>
            cases x with
            | notFound => exact ih
            | failed => simp [runCommand]
            | ran rc out => simp only [runCommand]; split_ifs with h <;> simp [h]
        exact this _ h1 h0
      · exact hc ⟨s, (answers_iff _ _).mp (runCommand_some h1)⟩
    simp only [this, ne_eq, not_false_eq_true, if_true, bind, Except.bind] at hp
    cases hp
  have hhead : ∃ s, Answers g.head s := by
    rcases h1 : (runCommand g.head).1 with _ | s
    · obtain ⟨s, hs⟩ := hdir
      simp only [gitPiecesFromVcs, runCommand_answers hs, runCommand_answers hd, h1, bind, Except.bind, pure, Except.pure, ne_eq,
        not_true_eq_false, if_false] at hp
      cases hp
    · exact ⟨s, (answers_iff _ _).mp (runCommand_some h1)⟩
  obtain ⟨full, hhead⟩ := hhead
  obtain ⟨base, hbase⟩ : ∃ base, base = if endsWith (str "-dirty") d = true then d.take (d.length - 6) else d := ⟨_, rfl⟩
  have hd' : d = base ++ if endsWith (str "-dirty") d = true then str "-dirty" else [] := by
    by_cases he : endsWith (str "-dirty") d = true
    · obtain ⟨u, hu⟩ := (endsWith_iff _ _).mp he
      rw [if_pos he] at hbase ⊢
      rw [hbase, hu]; simp [str]
    · rw [if_neg he] at hbase ⊢
      rw [hbase, List.append_nil]
  rw [pieces_run hdir hd hhead _ rfl base hbase] at hp
  by_cases hm : '-' ∈ base
  · rw [if_pos hm] at hp
    split at hp
    · cases hp; simp at ht
    · rename_i t' num hex hmd
      by_cases hpre : startsWith tagPrefix t' = true
      · rw [if_pos hpre] at hp
        split at hp
        · rename_i s hs
          cases hp
          simp only [Option.some.injEq] at ht
          obtain ⟨h1, h2⟩ := matchDescribe_some hmd
          obtain ⟨r, rfl⟩ := (startsWith_iff _ _).mp hpre
          simp only [List.drop_left] at ht
          subst ht
          rcases h2 with h2 | h2
          · refine ⟨num, [], h1.digits, rfl, Or.inl rfl, rfl, ?_⟩
            rw [h2] at hd'
            simpa [describeText] using hd'
          · refine ⟨num, ['\n'], h1.digits, rfl, Or.inr rfl, rfl, ?_⟩
            rw [h2] at hd'
            simpa [describeText] using hd'
        · cases hp
      · rw [if_neg hpre] at hp
        cases hp; simp at ht
  · rw [if_neg hm] at hp
    split at hp
    · cases hp
    · split at hp
      · cases hp
      · split at hp
        · cases hp; simp at ht
        · cases hp

/-- C97: a description with a hyphen that is not `TAG-NUM-gHEX` gives version "unknown" with an error, in every style. -/
theorem C97_unparseable (tagPrefix style d full : Str) (g : Git) (dirty : Bool) (base : Str)
    (hd : d = base ++ if dirty then str "-dirty" else []) (hdirty : dirty = false → ¬ ∃ u, d = u ++ str "-dirty") (hm : '-' ∈ base)
    (hbad : ∀ t num hex, DescribeParts t num hex → base ≠ describeText t num hex ∧ base ≠ describeText t num hex ++ ['\n'])
    (hdir : ∃ s, Answers g.gitDir s) (hdesc : Answers g.describe d) (hhead : Answers g.head full) :
    (do render (← gitPiecesFromVcs tagPrefix g) style) =
      .ok ⟨str "unknown", some full, none, some (str "unable to parse git-describe output: '" ++ d ++ str "'"), none⟩ := by
  have e1 : dirty = endsWith (str "-dirty") d := by
    cases dirty with
    | true => symm; rw [endsWith_iff]; exact ⟨base, by simpa using hd⟩
    | false => symm; rw [Bool.eq_false_iff, ne_eq, endsWith_iff]; exact hdirty rfl
  have e2 : base = if dirty then d.take (d.length - 6) else d := by
    rw [hd]; exact (take_dirty base dirty).symm
  have e3 : matchDescribe base = none := by
    rcases h : matchDescribe base with _ | ⟨t, num, hex⟩
    · rfl
    · obtain ⟨a, b⟩ := matchDescribe_some h
      obtain ⟨c1, c2⟩ := hbad t num hex a
      rcases b with b | b
      · exact absurd b c1
      · exact absurd b c2
  rw [pieces_run hdir hdesc hhead dirty e1 base e2, if_pos hm, e3]
  rfl

/-! ## C98 -/

/-- The pieces of a checkout git could describe: commit, abbreviated commit, dirty flag, closest tag if any, distance, date. -/
def built (long short : Str) (dirty : Bool) (tag : Option Str) (n : ℕ) (date : Option Str) : Pieces :=
  ⟨long, short, none, dirty, some tag, some n, date⟩

/-- The version of a checkout in the style PEP 440: the tag alone for a clean checkout of the tag itself, otherwise tag and local identifier. -/
def pep440 (tag : Option Str) (n : ℕ) (short : Str) (dirty : Bool) : Str :=
  let build := decimal n ++ str ".g" ++ short ++ if dirty then str ".dirty" else []
  match tag with
  | some (c :: t) => if n = 0 ∧ dirty = false then c :: t else c :: t ++ (if '+' ∈ c :: t then str "." else str "+") ++ build
  | _ => str "0+untagged." ++ build

/-- C98: the style `pep440`, which is that of the package, and the names of the default style. -/
theorem C98_pep440 (long short : Str) (dirty : Bool) (tag : Option Str) (n : ℕ) (date : Option Str) (style : Str)
    (hs : style = str "pep440" ∨ style = str "default" ∨ style = []) :
    render (built long short dirty tag n date) style = .ok ⟨pep440 tag n short dirty, some long, some dirty, none, date⟩ := by
  have e : render (built long short dirty tag n date) style =
      (do return (⟨← renderPep440 (built long short dirty tag n date), some long, some dirty, none, date⟩ : Info)) := by
    rcases hs with rfl | rfl | rfl <;> rfl
  rw [e]
  rcases tag with _ | _ | ⟨c, t⟩
  · cases dirty <;> simp [renderPep440, built, truthy, key, bind, Except.bind, pure, Except.pure, pep440]
  · cases dirty <;> simp [renderPep440, built, truthy, key, bind, Except.bind, pure, Except.pure, pep440]
  · by_cases h : n = 0 ∧ dirty = false
    · obtain ⟨rfl, rfl⟩ := h
      simp [renderPep440, built, truthy, key, bind, Except.bind, pure, Except.pure, pep440]
    · have h' : n ≠ 0 ∨ dirty = true := by
        by_cases hn : n = 0
        · right; by_contra hc; exact h ⟨hn, by simpa using hc⟩
        · exact Or.inl hn
      simp only [renderPep440, built, truthy, key, bind, Except.bind, pure, Except.pure, if_true, pep440, h, h', plusOrDot, if_false]
      by_cases hp : '+' ∈ c :: t <;> cases dirty <;> simp [hp, str]

theorem split_unique {x : Char} {a a' b b' : Str} (ha : x ∉ a) (ha' : x ∉ a') (h : a ++ x :: b = a' ++ x :: b') : a = a' ∧ b = b' := by
  have s := span_append (p := fun c => c ≠ x) (a := a) (x := x) (b := b) (by intro c hc; simpa using fun (e : c = x) => ha (e ▸ hc)) (by simp)
  have s' := span_append (p := fun c => c ≠ x) (a := a') (x := x) (b := b') (by intro c hc; simpa using fun (e : c = x) => ha' (e ▸ hc)) (by simp)
  rw [h] at s
  exact ⟨s.1.symm.trans s'.1, by simpa using s.2.symm.trans s'.2⟩

theorem build_inj {n n' : ℕ} {s s' : Str} {d d' : Bool} (hs : ∀ c ∈ s, isHex c = true) (hs' : ∀ c ∈ s', isHex c = true)
    (h : decimal n ++ str ".g" ++ s ++ (if d then str ".dirty" else []) = decimal n' ++ str ".g" ++ s' ++ if d' then str ".dirty" else []) :
    n = n' ∧ s = s' ∧ d = d' := by
  have hd : ∀ n, '.' ∉ decimal n := fun n hc => absurd (decimal_digits n _ hc) (by decide)
  have hx : '.' ∉ s := fun hc => absurd (hs _ hc) (by decide)
  have hx' : '.' ∉ s' := fun hc => absurd (hs' _ hc) (by decide)
  have e : ∀ (n : ℕ) (s : Str) (d : Bool), decimal n ++ str ".g" ++ s ++ (if d then str ".dirty" else []) =
      decimal n ++ '.' :: ('g' :: (s ++ if d then str ".dirty" else [])) := by intro n s d; simp [str]
  rw [e, e] at h
  obtain ⟨h1, h2⟩ := split_unique (hd n) (hd n') h
  simp only [List.cons.injEq, true_and] at h2
  refine ⟨decimal_inj h1, ?_⟩
  cases d <;> cases d'
  · simpa using h2
  · simp only [Bool.false_eq_true, if_false, if_true, List.append_nil] at h2
    exact absurd (h2 ▸ by simp [str] : '.' ∈ s) hx
  · simp only [Bool.false_eq_true, if_false, if_true, List.append_nil] at h2
    exact absurd (h2 ▸ by simp [str] : '.' ∈ s') hx'
  · simp only [if_true, str] at h2
    exact ⟨(split_unique (b := str "dirty") (b' := str "dirty") hx hx' (by simpa [str] using h2)).1, rfl⟩

/-- C98: versions are unambiguous: if tags have no `+` (and are not empty), two checkouts with the same version have the same closest tag, and are
both clean checkouts of that tag or have the same distance, the same abbreviated commit and the same dirty flag. -/
theorem C98_unambiguous (tag tag' : Option Str) (n n' : ℕ) (short short' : Str) (dirty dirty' : Bool)
    (ht : ∀ t, tag = some t → t ≠ [] ∧ '+' ∉ t) (ht' : ∀ t, tag' = some t → t ≠ [] ∧ '+' ∉ t) (hs : ∀ c ∈ short, isHex c = true)
    (hs' : ∀ c ∈ short', isHex c = true) (h : pep440 tag n short dirty = pep440 tag' n' short' dirty') :
    tag = tag' ∧ ((tag ≠ none ∧ n = 0 ∧ dirty = false ∧ n' = 0 ∧ dirty' = false) ∨ (n = n' ∧ short = short' ∧ dirty = dirty')) := by
  -- every version is `name + "+" + rest`, or the bare tag
  have form : ∀ (tag : Option Str) (n : ℕ) (short : Str) (dirty : Bool), (∀ t, tag = some t → t ≠ [] ∧ '+' ∉ t) →
      (∃ t, tag = some t ∧ n = 0 ∧ dirty = false ∧ '+' ∉ t ∧ pep440 tag n short dirty = t) ∨
      (∃ t, tag = some t ∧ '+' ∉ t ∧ pep440 tag n short dirty = t ++ '+' :: (decimal n ++ str ".g" ++ short ++ if dirty then str ".dirty" else [])) ∨
      (tag = none ∧ pep440 tag n short dirty = ['0'] ++ '+' :: (str "untagged." ++ (decimal n ++ str ".g" ++ short ++
        if dirty then str ".dirty" else []))) := by
    intro tag n short dirty ht
    rcases tag with _ | _ | ⟨c, t⟩
    · right; right; exact ⟨rfl, by simp [pep440, str]⟩
    · exact absurd rfl (ht [] rfl).1
    · have hp := (ht _ rfl).2
      by_cases h0 : n = 0 ∧ dirty = false
      · left; exact ⟨_, rfl, h0.1, h0.2, hp, by simp only [pep440]; rw [if_pos h0]⟩
      · right; left; refine ⟨_, rfl, hp, ?_⟩
        simp only [pep440]; rw [if_neg h0, if_neg hp]; simp [str]
  have hu : ∀ (n n' : ℕ) (s s' : Str) (d d' : Bool), decimal n ++ str ".g" ++ s ++ (if d then str ".dirty" else []) ≠
      str "untagged." ++ (decimal n' ++ str ".g" ++ s' ++ if d' then str ".dirty" else []) := by
    intro n n' s s' d d' he
    cases hdn : decimal n with
    | nil => exact decimal_ne_nil n hdn
    | cons x l =>
      have hx := decimal_digits n x (by rw [hdn]; exact List.mem_cons_self ..)
      rw [hdn] at he
      simp only [str, List.cons_append] at he
      have : x = 'u' := by
        have := congrArg List.head? he
        simpa using this
      subst this
      exact absurd hx (by decide)
  have h0 : '+' ∉ ['0'] := by decide
  rcases form tag n short dirty ht with ⟨t, rfl, a1, a2, a3, a4⟩ | ⟨t, rfl, a3, a4⟩ | ⟨rfl, a4⟩ <;>
  rcases form tag' n' short' dirty' ht' with ⟨t', rfl, b1, b2, b3, b4⟩ | ⟨t', rfl, b3, b4⟩ | ⟨rfl, b4⟩ <;>
  rw [a4, b4] at h
  · exact ⟨by rw [h], Or.inl ⟨by simp, a1, a2, b1, b2⟩⟩
  · exact absurd (h ▸ by simp : '+' ∈ t) a3
  · exact absurd (h ▸ by simp : '+' ∈ t) a3
  · exact absurd (h ▸ by simp : '+' ∈ t') b3
  · obtain ⟨e1, e2⟩ := split_unique a3 b3 h
    exact ⟨by rw [e1], Or.inr (build_inj hs hs' e2)⟩
  · exact absurd (split_unique a3 h0 h).2 (hu _ _ _ _ _ _)
  · exact absurd (h ▸ by simp : '+' ∈ t') b3
  · exact absurd (split_unique h0 b3 h).2.symm (hu _ _ _ _ _ _)
  · obtain ⟨-, e2⟩ := split_unique h0 h0 h
    exact ⟨rfl, Or.inr (build_inj hs hs' (List.append_cancel_left e2))⟩

/-- C98: a version has at most one `+` if the tag has (as PEP 440 demands). -/
theorem C98_one_plus (tag : Option Str) (n : ℕ) (short : Str) (dirty : Bool) (hs : ∀ c ∈ short, isHex c = true)
    (ht : ∀ t, tag = some t → t.count '+' ≤ 1) : (pep440 tag n short dirty).count '+' ≤ 1 := by
  have hd : (decimal n).count '+' = 0 := List.count_eq_zero.mpr fun hc => absurd (decimal_digits n _ hc) (by decide)
  have hx : short.count '+' = 0 := List.count_eq_zero.mpr fun hc => absurd (hs _ hc) (by decide)
  have hb : (decimal n ++ str ".g" ++ short ++ if dirty then str ".dirty" else []).count '+' = 0 := by
    cases dirty <;> simp only [List.count_append, hd, hx] <;> decide
  rcases tag with _ | _ | ⟨c, t⟩
  · simp only [pep440, List.count_append] at hb ⊢
    rw [hb]; decide
  · simp only [pep440, List.count_append] at hb ⊢
    rw [hb]; decide
  · have h1 := ht _ rfl
    simp only [pep440]
    by_cases h0 : n = 0 ∧ dirty = false
    · rw [if_pos h0]; exact h1
    · rw [if_neg h0, List.count_append, List.count_append, hb]
      by_cases hp : '+' ∈ c :: t
      · rw [if_pos hp]
        have : (str ".").count '+' = 0 := by decide
        omega
      · rw [if_neg hp, List.count_eq_zero.mpr hp]
        decide

/-- C98: the other styles for a tagged checkout (tag not empty) and for one without tags. -/
theorem C98_styles (long short t : Str) (dirty : Bool) (n : ℕ) (date : Option Str) (ht : t ≠ []) (style v : Str)
    (h : (style = str "pep440-pre" ∧ v = t ++ if n = 0 then [] else str ".post.dev" ++ decimal n) ∨
      (style = str "pep440-post" ∧ v = if n = 0 ∧ dirty = false then t else
        t ++ str ".post" ++ decimal n ++ (if dirty then str ".dev0" else []) ++ (if '+' ∈ t then str "." else str "+") ++ str "g" ++ short) ∨
      (style = str "pep440-old" ∧ v = if n = 0 ∧ dirty = false then t else t ++ str ".post" ++ decimal n ++ if dirty then str ".dev0" else []) ∨
      (style = str "git-describe" ∧ v = t ++ (if n = 0 then [] else str "-" ++ decimal n ++ str "-g" ++ short) ++
        if dirty then str "-dirty" else []) ∨
      (style = str "git-describe-long" ∧ v = describeOut t n short dirty)) :
    render (built long short dirty (some t) n date) style = .ok ⟨v, some long, some dirty, none, date⟩ := by
  obtain ⟨c, l, rfl⟩ := List.exists_cons_of_ne_nil ht
  have h2 : ∀ n : ℕ, (n = 0 ∧ dirty = false) ∨ (¬ (n = 0 ∧ dirty = false) ∧ (n ≠ 0 ∨ dirty = true)) := by
    intro n
    by_cases hn : n = 0 <;> cases dirty <;> simp [hn]
  rcases h with ⟨rfl, rfl⟩ | ⟨rfl, rfl⟩ | ⟨rfl, rfl⟩ | ⟨rfl, rfl⟩ | ⟨rfl, rfl⟩
  · have e : render (built long short dirty (some (c :: l)) n date) (str "pep440-pre") =
      (do return (⟨← renderPep440Pre (built long short dirty (some (c :: l)) n date), some long, some dirty, none, date⟩ : Info)) := rfl
    rw [e]
    by_cases hn : n = 0 <;> simp [renderPep440Pre, built, truthy, key, bind, Except.bind, pure, Except.pure, hn]
  · have e : render (built long short dirty (some (c :: l)) n date) (str "pep440-post") =
      (do return (⟨← renderPep440Post (built long short dirty (some (c :: l)) n date), some long, some dirty, none, date⟩ : Info)) := rfl
    rw [e]
    rcases h2 n with h2 | ⟨h2, h3⟩
    · rw [if_pos h2]
      obtain ⟨rfl, rfl⟩ := h2
      simp [renderPep440Post, built, truthy, key, bind, Except.bind, pure, Except.pure]
    · rw [if_neg h2]
      simp only [renderPep440Post, built, truthy, key, bind, Except.bind, pure, Except.pure, if_true, h3, plusOrDot]
      by_cases hp : '+' ∈ c :: l <;> cases dirty <;> simp [hp, str]
  · have e : render (built long short dirty (some (c :: l)) n date) (str "pep440-old") =
      (do return (⟨← renderPep440Old (built long short dirty (some (c :: l)) n date), some long, some dirty, none, date⟩ : Info)) := rfl
    rw [e]
    rcases h2 n with h2 | ⟨h2, h3⟩
    · rw [if_pos h2]
      obtain ⟨rfl, rfl⟩ := h2
      simp [renderPep440Old, built, truthy, key, bind, Except.bind, pure, Except.pure]
    · rw [if_neg h2]
      simp only [renderPep440Old, built, truthy, key, bind, Except.bind, pure, Except.pure, if_true, h3]
      cases dirty <;> simp [str]
  · have e : render (built long short dirty (some (c :: l)) n date) (str "git-describe") =
      (do return (⟨← renderGitDescribe (built long short dirty (some (c :: l)) n date), some long, some dirty, none, date⟩ : Info)) := rfl
    rw [e]
    by_cases hn : n = 0 <;> cases dirty <;> simp [renderGitDescribe, built, truthy, key, bind, Except.bind, pure, Except.pure, hn]
  · cases dirty <;> rfl

/-- C98: the other styles without a tag. -/
theorem C98_styles_untagged (long short : Str) (dirty : Bool) (n : ℕ) (date : Option Str) (style v : Str)
    (h : (style = str "pep440-pre" ∧ v = str "0.post.dev" ++ decimal n) ∨
      (style = str "pep440-post" ∧ v = str "0.post" ++ decimal n ++ (if dirty then str ".dev0" else []) ++ str "+g" ++ short) ∨
      (style = str "pep440-old" ∧ v = str "0.post" ++ decimal n ++ if dirty then str ".dev0" else []) ∨
      ((style = str "git-describe" ∨ style = str "git-describe-long") ∧ v = short ++ if dirty then str "-dirty" else [])) :
    render (built long short dirty none n date) style = .ok ⟨v, some long, some dirty, none, date⟩ := by
  rcases h with ⟨rfl, rfl⟩ | ⟨rfl, rfl⟩ | ⟨rfl, rfl⟩ | ⟨rfl | rfl, rfl⟩ <;> rfl

/-- C98: any other style is a `ValueError`, unless the pieces carry an error. -/
theorem C98_unknown_style (long short : Str) (dirty : Bool) (tag : Option Str) (n : ℕ) (date : Option Str) (style : Str)
    (h : style ∉ [[], str "default", str "pep440", str "pep440-pre", str "pep440-post", str "pep440-old", str "git-describe",
      str "git-describe-long"]) : render (built long short dirty tag n date) style = .error .valueError := by
  simp only [List.mem_cons, List.not_mem_nil, or_false, not_or] at h
  obtain ⟨h0, h1, h2, h3, h4, h5, h6, h7⟩ := h
  simp only [render, built, h0, h1, h2, h3, h4, h5, h6, h7, if_false, or_self]
  rfl

/-! ## C99 -/

/-- Names separated by comma and space. -/
def joinNames : List Str → Str
  | [] => []
  | [x] => x
  | x :: y :: l => x ++ str ", " ++ joinNames (y :: l)

/-- What `git archive` puts in place of `$Format:%d$` for a commit decorated with names: ` (HEAD -> master, tag: 1.0)`. -/
def decoration (names : List Str) : Str := str " (" ++ joinNames names ++ str ")"

/-- An ordinary decoration: not empty, without comma, parentheses or white space at its ends. -/
structure Name (x : Str) : Prop where
  ne : x ≠ []
  comma : ',' ∉ x
  openP : '(' ∉ x
  closeP : ')' ∉ x
  clean : Clean isSpace x

open Classical in
/-- The tags among the names: what follows "tag: ", or (very old git) names with a digit if nothing is marked as a tag. -/
def IsTag (names : List Str) (t : Str) : Prop :=
  if ∃ u, str "tag: " ++ u ∈ names then str "tag: " ++ t ∈ names else t ∈ names ∧ ∃ c ∈ t, isDigit c = true

theorem splitOn_none {x : Char} {a : Str} (h : x ∉ a) : splitOn x a = [a] := by
  induction a with
  | nil => rfl
  | cons c l ih =>
    rw [List.mem_cons, not_or] at h
    rw [splitOn, if_neg (Ne.symm h.1), ih h.2]

theorem splitOn_append {x : Char} {a b : Str} (h : x ∉ a) : splitOn x (a ++ x :: b) = a :: splitOn x b := by
  induction a with
  | nil => rw [List.nil_append, splitOn, if_pos rfl]
  | cons c l ih =>
    rw [List.mem_cons, not_or] at h
    rw [List.cons_append, splitOn, if_neg (Ne.symm h.1), ih h.2]

theorem splitOn_join (x : Str) (l : List Str) (h : ∀ y ∈ x :: l, ',' ∉ y) (a : Str) (ha : ',' ∉ a) :
    splitOn ',' (a ++ joinNames (x :: l)) = (a ++ x) :: l.map (' ' :: ·) := by
  induction l generalizing x a with
  | nil => rw [joinNames, splitOn_none (by simp [ha, h x])]; rfl
  | cons y l ih =>
    have e : a ++ joinNames (x :: y :: l) = (a ++ x) ++ ',' :: ([' '] ++ joinNames (y :: l)) := by simp [joinNames, str]
    rw [e, splitOn_append (by simp [ha, h x]), ih y (fun z hz => h z (List.mem_cons_of_mem _ hz)) [' '] (by decide)]
    simp

theorem joinNames_ends (x : Str) (l : List Str) (h : ∀ y ∈ x :: l, Name y) (p : Char → Bool) (hp : ∀ y ∈ x :: l, ∀ c ∈ y, p c = false) :
    Clean p (joinNames (x :: l)) ∧ joinNames (x :: l) ≠ [] := by
  induction l generalizing x with
  | nil =>
    refine ⟨⟨fun c hc => hp x (by simp) c (List.mem_of_mem_head? hc), fun c hc => hp x (by simp) c (List.mem_of_getLast? hc)⟩, (h x (by simp)).ne⟩
  | cons y l ih =>
    obtain ⟨⟨-, i2⟩, i3⟩ := ih y (fun z hz => h z (List.mem_cons_of_mem _ hz)) (fun z hz => hp z (List.mem_cons_of_mem _ hz))
    obtain ⟨c, t, hx⟩ := List.exists_cons_of_ne_nil (h x (by simp)).ne
    refine ⟨⟨fun d hd => ?_, fun d hd => ?_⟩, ?_⟩
    · rw [joinNames, hx] at hd
      simp only [List.cons_append, List.head?_cons, Option.some.injEq] at hd
      exact hp x (by simp) d (by rw [hx, hd]; exact List.mem_cons_self ..)
    · rw [joinNames, List.getLast?_append_of_ne_nil _ i3] at hd
      exact i2 d hd
    · rw [joinNames, hx]; simp

theorem strip_decoration (names : List Str) : strip (decoration names) = str "(" ++ joinNames names ++ str ")" := by
  have : decoration names = [' '] ++ (str "(" ++ joinNames names ++ str ")") ++ [] := by simp [decoration, str]
  rw [this]
  refine strip_pad ⟨fun c hc => ?_, fun c hc => ?_⟩ (by simp [str]) (by decide) (by simp)
  · simp only [str, List.append_assoc] at hc
    have : c = '(' := by simpa using hc.symm
    subst this; decide
  · rw [List.getLast?_append_of_ne_nil _ (by simp [str])] at hc
    have : c = ')' := by simpa [str] using hc.symm
    subst this; decide

theorem refs_decoration (names : List Str) (hne : names ≠ []) (h : ∀ x ∈ names, Name x) : refs (strip (decoration names)) = names.dedup := by
  obtain ⟨x, l, rfl⟩ := List.exists_cons_of_ne_nil hne
  have e1 := strip_decoration (x :: l)
  obtain ⟨c1, c2⟩ := joinNames_ends x l h (fun c => c = '(' || c = ')') (by
    intro y hy c hc
    have := h y hy
    by_contra hcon
    rw [Bool.not_eq_false, Bool.or_eq_true, decide_eq_true_eq, decide_eq_true_eq] at hcon
    rcases hcon with rfl | rfl
    · exact this.openP hc
    · exact this.closeP hc)
  unfold refs
  rw [e1, strip_pad c1 c2 (by decide) (by decide)]
  have := splitOn_join x l (fun y hy => (h y hy).comma) [] (by simp)
  rw [List.nil_append, List.nil_append] at this
  rw [this]
  congr 1
  rw [List.map_cons, List.map_map]
  congr 1
  · exact stripP_eq_self (h x (by simp)).clean
  · conv_rhs => rw [← List.map_id l]
    refine List.map_congr_left fun y hy => ?_
    have hy' := h y (List.mem_cons_of_mem _ hy)
    have := strip_pad (p := isSpace) hy'.clean hy'.ne (a := [' ']) (b := []) (by decide) (by simp)
    rw [List.append_nil] at this
    exact this

theorem mem_tags (names : List Str) (t : Str) (rs : List Str) (hr : ∀ x, x ∈ rs ↔ x ∈ names) : t ∈ tags rs ↔ IsTag names t := by
  have key : ∀ u, u ∈ ((rs.filter (startsWith (str "tag: "))).map (List.drop 5)).dedup ↔ str "tag: " ++ u ∈ names := by
    intro u
    rw [List.mem_dedup, List.mem_map]
    constructor
    · rintro ⟨x, hx, rfl⟩
      rw [List.mem_filter] at hx
      obtain ⟨v, rfl⟩ := (startsWith_iff _ _).mp hx.2
      have : List.drop 5 (str "tag: " ++ v) = v := rfl
      rw [this, ← hr]; exact hx.1
    · intro hu
      refine ⟨str "tag: " ++ u, ?_, rfl⟩
      rw [List.mem_filter, hr]
      exact ⟨hu, (startsWith_iff _ _).mpr ⟨u, rfl⟩⟩
  unfold tags IsTag
  by_cases hex : ∃ u, str "tag: " ++ u ∈ names
  · rw [if_pos hex]
    obtain ⟨u, hu⟩ := hex
    have : ((rs.filter (startsWith (str "tag: "))).map (List.drop 5)).dedup ≠ [] := List.ne_nil_of_mem ((key u).mpr hu)
    simp only [this, if_false]
    exact key t
  · rw [if_neg hex]
    have : ((rs.filter (startsWith (str "tag: "))).map (List.drop 5)).dedup = [] := by
      rw [List.eq_nil_iff_forall_not_mem]
      intro u hu
      exact hex ⟨u, (key u).mp hu⟩
    simp only [this, if_true]
    rw [List.mem_filter, hr, List.any_eq_true]

theorem find_sorted {l : List Str} (hs : l.Pairwise (· ≤ ·)) (p : Str → Bool) (a : Str) (h : l.find? p = some a) :
    a ∈ l ∧ p a = true ∧ ∀ b ∈ l, p b = true → a ≤ b := by
  induction l with
  | nil => cases h
  | cons x l ih =>
    rw [List.pairwise_cons] at hs
    rw [List.find?_cons] at h
    split at h
    · rename_i hp
      cases h
      refine ⟨List.mem_cons_self .., hp, fun b hb _ => ?_⟩
      rcases List.mem_cons.mp hb with rfl | hb
      · exact le_refl _
      · exact hs.1 b hb
    · rename_i hp
      obtain ⟨h1, h2, h3⟩ := ih hs.2 h
      refine ⟨List.mem_cons_of_mem _ h1, h2, fun b hb hpb => ?_⟩
      rcases List.mem_cons.mp hb with rfl | hb
      · rw [hpb] at hp; cases hp
      · exact h3 b hb hpb

theorem decoration_not_format (names : List Str) : startsWith (str "$Format") (strip (decoration names)) = false := by
  rw [Bool.eq_false_iff, ne_eq, startsWith_iff]
  rintro ⟨t, ht⟩
  have e1 := strip_decoration names
  rw [e1] at ht
  have := congrArg List.head? ht
  simp [str] at this

/-- C99: in an archive made by `git archive` the version is the smallest (in code point order) tag of the commit that starts with the prefix, without
the prefix; if there is none it is "0+unknown".  The commit is the substituted one and the tree counts as clean. -/
theorem C99_archive (names : List Str) (hne : names ≠ []) (h : ∀ x ∈ names, Name x) (full : Str) (date : Option Str) (tagPrefix : Str) :
    (∃ v, IsTag names (tagPrefix ++ v) ∧ (∀ u, IsTag names (tagPrefix ++ u) → tagPrefix ++ v ≤ tagPrefix ++ u) ∧
      gitVersionsFromKeywords ⟨some (decoration names), some full, date⟩ tagPrefix =
        .ok ⟨v, some (strip full), some false, none, date.map isoDate⟩) ∨
    ((∀ u, ¬ IsTag names (tagPrefix ++ u)) ∧
      gitVersionsFromKeywords ⟨some (decoration names), some full, date⟩ tagPrefix =
        .ok ⟨str "0+unknown", some (strip full), some false, some (str "no suitable tags"), none⟩) := by
  have hr : ∀ x, x ∈ refs (strip (decoration names)) ↔ x ∈ names := by
    intro x; rw [refs_decoration names hne h, List.mem_dedup]
  have hm := fun t => mem_tags names t _ hr
  have hfmt := decoration_not_format names
  have hsort := List.pairwise_insertionSort (· ≤ ·) (tags (refs (strip (decoration names))))
  have e : ∀ r : Option Str, ((tags (refs (strip (decoration names)))).insertionSort (· ≤ ·)).find? (startsWith tagPrefix) = r →
      gitVersionsFromKeywords ⟨some (decoration names), some full, date⟩ tagPrefix =
      match r with
      | some ref => .ok ⟨ref.drop tagPrefix.length, some (strip full), some false, none, date.map isoDate⟩
      | none => .ok ⟨str "0+unknown", some (strip full), some false, some (str "no suitable tags"), none⟩ := by
    intro r hr
    simp only [gitVersionsFromKeywords, key, bind, Except.bind, pure, Except.pure, hfmt, hr]
    rw [if_neg (by simp)]
    simp only [Bool.false_eq_true, if_false]
    cases r <;> rfl
  rcases hf : ((tags (refs (strip (decoration names)))).insertionSort (· ≤ ·)).find? (startsWith tagPrefix) with _ | ref
  · right
    refine ⟨fun u hu => ?_, by rw [e _ hf]⟩
    rw [List.find?_eq_none] at hf
    refine hf (tagPrefix ++ u) ?_ ((startsWith_iff _ _).mpr ⟨u, rfl⟩)
    rw [List.mem_insertionSort]; exact (hm _).mpr hu
  · left
    obtain ⟨h1, h2, h3⟩ := find_sorted hsort _ _ hf
    obtain ⟨v, rfl⟩ := (startsWith_iff _ _).mp h2
    rw [List.mem_insertionSort, hm] at h1
    refine ⟨v, h1, fun u hu => h3 _ (by rw [List.mem_insertionSort]; exact (hm _).mpr hu) ((startsWith_iff _ _).mpr ⟨u, rfl⟩), ?_⟩
    rw [e _ hf]
    simp

/-- C99: keywords that git did not substitute are not used. -/
theorem C99_not_an_archive (rest : Str) (full date : Option Str) (tagPrefix : Str) (hr : ∀ c, rest.getLast? = some c → isSpace c = false) :
    gitVersionsFromKeywords ⟨some (str "$Format" ++ rest), full, date⟩ tagPrefix = .error .notThisMethod := by
  have hs : strip (str "$Format" ++ rest) = str "$Format" ++ rest := by
    refine stripP_eq_self ⟨fun c hc => ?_, fun c hc => ?_⟩
    · have : c = '$' := by simpa [str] using hc.symm
      subst this; decide
    · rcases eq_or_ne rest [] with rfl | hne
      · have : c = 't' := by simpa [str] using hc.symm
        subst this; decide
      · rw [List.getLast?_append_of_ne_nil _ hne] at hc
        exact hr c hc
  have h2 : startsWith (str "$Format") (str "$Format" ++ rest) = true := (startsWith_iff _ _).mpr ⟨rest, rfl⟩
  simp only [gitVersionsFromKeywords, key, bind, Except.bind, pure, Except.pure, hs, h2]
  rw [if_neg (by simp)]
  rfl

/-! ## Non-vacuity -/

/-- A checkout two commits after the tag `v1-rc`, modified; git is the second program tried. -/
def demoGit : Git :=
  ⟨[.ran 0 (str ".git\n")], [.notFound, .ran 0 (str "v1-rc-2-g0a1b2c3-dirty\n")], [.ran 0 (str "0a1b2c3d4e\n")], [.ran 0 (str "17\n")],
    [.ran 0 (str "2020-01-02 03:04:05 +0100\n")]⟩

example : gitPiecesFromVcs (str "v") demoGit = .ok ⟨str "0a1b2c3d4e", str "0a1b2c3", none, true, some (some (str "1-rc")), some 2,
    some (str "2020-01-02T03:04:05+0100")⟩ := by
  refine (C97_described (str "v") (str "1-rc") 2 (str "0a1b2c3") true (str "0a1b2c3d4e") (str "2020-01-02 03:04:05 +0100") demoGit (by decide)
    (by decide) (by decide) (by decide) ⟨str ".git", [], _, [], rfl, by simp, by decide⟩ ⟨[.notFound], _, [], rfl, by simp, ?_⟩
    ⟨[], _, [], rfl, by simp, by decide⟩ ⟨[], _, [], rfl, by simp, by decide⟩).1
  have : decimal 2 = str "2" := by simp [decimal, str]
  simp only [describeOut, this]
  decide

/-- A description git never prints. -/
example : (do render (← gitPiecesFromVcs [] { demoGit with describe := [.ran 0 (str "a-b\n")] }) (str "pep440")) =
    .ok ⟨str "unknown", some (str "0a1b2c3d4e"), none, some (str "unable to parse git-describe output: 'a-b'"), none⟩ := by
  refine C97_unparseable [] (str "pep440") (str "a-b") (str "0a1b2c3d4e") _ false (str "a-b") rfl ?_ (by decide) ?_
    ⟨str ".git", [], _, [], rfl, by simp, by decide⟩ ⟨[], _, [], rfl, by simp, by decide⟩ ⟨[], _, [], rfl, by simp, by decide⟩
  · rintro - ⟨u, hu⟩
    have := congrArg List.length hu
    simp [str] at this
  · intro t num hex h
    have key : ∀ l : Str, str "a-b" ≠ describeText t num hex ++ l := by
      intro l e
      have h1 := List.length_pos_of_ne_nil h.tagNe
      have h2 := List.length_pos_of_ne_nil h.numNe
      have h3 := List.length_pos_of_ne_nil h.hexNe
      have := congrArg List.length e
      simp [describeText, str] at this
      omega
    exact ⟨by simpa using key [], key _⟩

/-- Two tags: "1.10" sorts before "1.9". -/
example : gitVersionsFromKeywords ⟨some (str " (HEAD -> master, tag: 1.9, tag: 1.10)"), some (str "abc"), none⟩ [] =
    .ok ⟨str "1.10", some (str "abc"), some false, none, none⟩ := by decide +kernel

example : ∀ x ∈ [str "HEAD -> master", str "tag: 1.9"], Name x := by
  intro x hx
  simp only [List.mem_cons, List.not_mem_nil, or_false] at hx
  rcases hx with rfl | rfl
  · exact ⟨by decide, by decide, by decide, by decide, fun c hc => by
      have : c = 'H' := by simpa [str] using hc.symm
      subst this; decide, fun c hc => by
      have : c = 'r' := by simpa [str] using hc.symm
      subst this; decide⟩
  · exact ⟨by decide, by decide, by decide, by decide, fun c hc => by
      have : c = 't' := by simpa [str] using hc.symm
      subst this; decide, fun c hc => by
      have : c = '9' := by simpa [str] using hc.symm
      subst this; decide⟩

/-- Tags with `+` are ambiguous: a clean checkout of the tag `1+2.gab` and the commit `ab`, two after the tag `1`. -/
example : pep440 (some (str "1+2.gab")) 0 (str "cd") false = pep440 (some (str "1")) 2 (str "ab") false := by
  have : decimal 2 = str "2" := by simp [decimal, str]
  simp only [pep440, str, this] <;> decide

end PyOTF.Version
