import Verif.Props.C97_C99_Version

/-!
# C100, C101: `pyotf.__version__`, and reading the keywords back from the file
-/

namespace PyOTF.Version

/-! ## C100 -/

theorem not_answers_gitDir {l : List Launch} (h : ¬ ∃ s, Answers l s) : (runCommand l).2 ≠ some 0 ∧ (runCommand l).1 = none := by
  have h1 : (runCommand l).1 = none := by
    rcases h1 : (runCommand l).1 with _ | s
    · rfl
    · exact absurd ⟨s, (answers_iff _ _).mp (runCommand_some h1)⟩ h
  refine ⟨?_, h1⟩
  revert h1
  clear h
  induction l with
  | nil => simp [runCommand]
  | cons x l ih =>
    cases x with
    | notFound => exact ih
    | failed => simp [runCommand]
    | ran rc out => simp only [runCommand]; split_ifs with h <;> simp [h]

theorem keywords_unexpanded : gitVersionsFromKeywords getKeywords getConfig.tagPrefix = .error .notThisMethod :=
  C99_not_an_archive (str ":%d$") _ _ _ (by
    intro c hc
    have : c = '$' := by simpa [str] using hc.symm
    subst this; decide)

theorem getVersions_some (path : List Str) (g : Git) : getVersions (some path) g =
    match (do render (← gitPiecesFromVcs [] g) (str "pep440")) with
    | .error .notThisMethod => .ok ⟨str "0+unknown", none, none, some (str "unable to compute version"), none⟩
    | r => r := by
  unfold getVersions getVersionsWith
  rw [keywords_unexpanded]
  rfl

/-- C100: in a checkout git can describe, the version is the PEP 440 version of the description. -/
theorem C100_tagged (path : List Str) (g : Git) (tag : Str) (n : ℕ) (hex : Str) (dirty : Bool) (full date : Str) (ht : tag ≠ []) (h1 : '\n' ∉ tag)
    (hh : hex ≠ []) (hx : ∀ c ∈ hex, isHex c = true) (hdir : ∃ s, Answers g.gitDir s) (hdesc : Answers g.describe (describeOut tag n hex dirty))
    (hhead : Answers g.head full) (hdate : Answers g.date date) :
    getVersions (some path) g = .ok ⟨pep440 (some tag) n hex dirty, some full, some dirty, none, some (isoDate date)⟩ := by
  have e := (C97_described [] tag n hex dirty full date g ht h1 hh hx hdir hdesc hhead hdate).1
  rw [getVersions_some, e]
  have := C98_pep440 full hex dirty (some tag) n (some (isoDate date)) (str "pep440") (Or.inl rfl)
  simp only [bind, Except.bind, built] at this ⊢
  rw [this]

/-- C100: in a checkout without tags the version is `0+untagged.COUNT.gCOMMIT`. -/
theorem C100_untagged (path : List Str) (g : Git) (n : ℕ) (hex : Str) (dirty : Bool) (full date : Str)
    (hx : ∀ c ∈ hex, isHex c = true) (hdir : ∃ s, Answers g.gitDir s) (hdesc : Answers g.describe (hex ++ if dirty then str "-dirty" else []))
    (hhead : Answers g.head full) (hcount : Answers g.count (decimal n)) (hdate : Answers g.date date) :
    getVersions (some path) g = .ok ⟨pep440 none n (full.take 7) dirty, some full, some dirty, none, some (isoDate date)⟩ := by
  rw [getVersions_some, C97_untagged [] hex n dirty full date g hx hdir hdesc hhead hcount hdate]
  have := C98_pep440 full (full.take 7) dirty none n (some (isoDate date)) (str "pep440") (Or.inl rfl)
  simp only [bind, Except.bind, built] at this ⊢
  rw [this]

/-- C100: without git, outside a checkout, or without `__file__` the version is "0+unknown" and nothing is raised. -/
theorem C100_no_git (file : Option (List Str)) (g : Git)
    (h : file = none ∨ (¬ ∃ s, Answers g.gitDir s) ∨ (¬ ∃ s, Answers g.describe s) ∨ ¬ ∃ s, Answers g.head s) :
    ∃ e, getVersions file g = .ok ⟨str "0+unknown", none, none, some e, none⟩ := by
  rcases file with _ | path
  · refine ⟨str "unable to find root of source tree", ?_⟩
    unfold getVersions getVersionsWith
    rw [keywords_unexpanded]
  · refine ⟨str "unable to compute version", ?_⟩
    have key : gitPiecesFromVcs [] g = .error .notThisMethod := by
      by_cases h1 : ∃ s, Answers g.gitDir s
      · obtain ⟨s1, h1⟩ := h1
        by_cases h2 : ∃ s, Answers g.describe s
        · obtain ⟨s2, h2⟩ := h2
          have h3 : ¬ ∃ s, Answers g.head s := by
            rcases h with h | h | h | h
            · cases h
            · exact absurd ⟨s1, h1⟩ h
            · exact absurd ⟨s2, h2⟩ h
            · exact h
          simp only [gitPiecesFromVcs, runCommand_answers h1, runCommand_answers h2, (not_answers_gitDir h3).2, bind, Except.bind, pure,
            Except.pure, ne_eq, not_true_eq_false, if_false]
          rfl
        · simp only [gitPiecesFromVcs, runCommand_answers h1, (not_answers_gitDir h2).2, bind, Except.bind, pure,
            Except.pure, ne_eq, not_true_eq_false, if_false]
          rfl
      · simp only [gitPiecesFromVcs, (not_answers_gitDir h1).1, bind, Except.bind, ne_eq, not_false_eq_true, if_true]
        rfl
    rw [getVersions_some, key]
    rfl

/-- C100: in an archive (the keywords are substituted) git and the directory are not consulted: the version is the smallest tag of the commit,
"0+unknown" if it has none, whatever git would say, wherever the file is. -/
theorem C100_archive (names : List Str) (hne : names ≠ []) (h : ∀ x ∈ names, Name x) (full : Str) (date : Option Str) (cfg : Config)
    (file : Option (List Str)) (g : Git) :
    (∃ v, IsTag names (cfg.tagPrefix ++ v) ∧ (∀ u, IsTag names (cfg.tagPrefix ++ u) → cfg.tagPrefix ++ v ≤ cfg.tagPrefix ++ u) ∧
      getVersionsWith cfg ⟨some (decoration names), some full, date⟩ file g = .ok ⟨v, some (strip full), some false, none, date.map isoDate⟩) ∨
    ((∀ u, ¬ IsTag names (cfg.tagPrefix ++ u)) ∧
      getVersionsWith cfg ⟨some (decoration names), some full, date⟩ file g =
        .ok ⟨str "0+unknown", some (strip full), some false, some (str "no suitable tags"), none⟩) := by
  rcases C99_archive names hne h full date cfg.tagPrefix with ⟨v, h1, h2, h3⟩ | ⟨h1, h3⟩
  · exact Or.inl ⟨v, h1, h2, by unfold getVersionsWith; rw [h3]⟩
  · exact Or.inr ⟨h1, by unfold getVersionsWith; rw [h3]⟩

/-- C101: the name of a directory up to two levels above gives the version if it starts with the prefix; the innermost one is preferred. -/
theorem C101_parentdir (parentdirPrefix v : Str) (root : List Str) (k : ℕ) (hk : k < 3) (h : root.getD k [] = parentdirPrefix ++ v)
    (hfirst : ∀ i < k, ¬ ∃ u, root.getD i [] = parentdirPrefix ++ u) :
    versionsFromParentdir parentdirPrefix root = .ok ⟨v, none, some false, none, none⟩ := by
  have hs : startsWith parentdirPrefix (root.getD k []) = true := (startsWith_iff _ _).mpr ⟨v, h⟩
  have hn : ∀ i < k, startsWith parentdirPrefix (root.getD i []) = false := by
    intro i hi
    rw [Bool.eq_false_iff, ne_eq, startsWith_iff]
    exact hfirst i hi
  have hf : ((List.range 3).map fun i => root.getD i []).find? (startsWith parentdirPrefix) = some (root.getD k []) := by
    have e : (List.range 3).map (fun i => root.getD i []) = [root.getD 0 [], root.getD 1 [], root.getD 2 []] := rfl
    rw [e]
    have : k = 0 ∨ k = 1 ∨ k = 2 := by omega
    rcases this with rfl | rfl | rfl
    · simp only [List.find?_cons, hs]
    · simp only [List.find?_cons, hs, hn 0 (by omega)]
    · simp only [List.find?_cons, hs, hn 0 (by omega), hn 1 (by omega)]
  unfold versionsFromParentdir
  rw [hf, h]
  simp

/-- C100: with a prefix for the name of the directory configured, a source tree that git does not know takes its version from that name. -/
theorem C100_parentdir (cfg : Config) (hp : cfg.parentdirPrefix ≠ []) (v : Str) (leaf parent : Str) (root : List Str) (k : ℕ) (hk : k < 3)
    (h : root.getD k [] = cfg.parentdirPrefix ++ v) (hfirst : ∀ i < k, ¬ ∃ u, root.getD i [] = cfg.parentdirPrefix ++ u)
    (g : Git) (hg : gitPiecesFromVcs cfg.tagPrefix g = .error .notThisMethod) :
    getVersionsWith cfg getKeywords (some (leaf :: parent :: root)) g = .ok ⟨v, none, some false, none, none⟩ := by
  have e : versionsFromParentdir cfg.parentdirPrefix root = .ok ⟨v, none, some false, none, none⟩ :=
    C101_parentdir cfg.parentdirPrefix v root k hk h hfirst
  have hk' : gitVersionsFromKeywords getKeywords cfg.tagPrefix = .error .notThisMethod :=
    C99_not_an_archive (str ":%d$") _ _ cfg.tagPrefix (by decide)
  unfold getVersionsWith
  rw [hk']
  simp only [hg, bind, Except.bind, List.drop_succ_cons, List.drop_zero, hp, ne_eq, not_false_eq_true, if_true, e]

/-- The description has the form `TAG-NUM-gHEX`. -/
def Tagged (base : Str) : Prop :=
  ∃ t num hex, DescribeParts t num hex ∧ (base = describeText t num hex ∨ base = describeText t num hex ++ ['\n'])

/-- C100: when importing the package fails because of its version: git described the checkout, but cannot count commits (needed without a tag) or
tell the date of the commit (needed unless the description is garbled). -/
theorem C100_raises_iff (path : List Str) (g : Git) (d base full : Str) (dirty : Bool) (hd : d = base ++ if dirty then str "-dirty" else [])
    (hdirty : dirty = false → ¬ ∃ u, d = u ++ str "-dirty") (hdir : ∃ s, Answers g.gitDir s) (hdesc : Answers g.describe d)
    (hhead : Answers g.head full) :
    (∃ e, getVersions (some path) g = .error e) ↔
      ('-' ∉ base ∧ ¬ ∃ c, Answers g.count c ∧ c ≠ [] ∧ ∀ x ∈ c, isDigit x = true) ∨
      (('-' ∈ base → Tagged base) ∧ ¬ ∃ s, Answers g.date s) := by
  have e1 : dirty = endsWith (str "-dirty") d := by
    cases dirty with
    | true => symm; rw [endsWith_iff]; exact ⟨base, by simpa using hd⟩
    | false => symm; rw [Bool.eq_false_iff, ne_eq, endsWith_iff]; exact hdirty rfl
  have e2 : base = if dirty then d.take (d.length - 6) else d := by
    rw [hd]; exact (take_dirty base dirty).symm
  have hrun := pieces_run (tagPrefix := []) hdir hdesc hhead dirty e1 base e2
  have err : ∀ e, e ≠ VErr.notThisMethod → gitPiecesFromVcs [] g = .error e → ∃ e, getVersions (some path) g = .error e := by
    intro e he h
    refine ⟨e, ?_⟩
    rw [getVersions_some, h]
    simp only [bind, Except.bind]
    split
    · rename_i h; cases h; exact absurd rfl he
    · rfl
  have okr : ∀ (i : Info), (do render (← gitPiecesFromVcs [] g) (str "pep440")) = .ok i → ¬ ∃ e, getVersions (some path) g = .error e := by
    rintro i h ⟨e, he⟩
    rw [getVersions_some, h] at he
    cases he
  have hdate : ∀ s, (runCommand g.date).1 = some s → ∃ s, Answers g.date s := fun s h => ⟨s, (answers_iff _ _).mp (runCommand_some h)⟩
  have hdate' : (runCommand g.date).1 = none → ¬ ∃ s, Answers g.date s := by
    rintro h ⟨s, hs⟩; rw [runCommand_answers hs] at h; cases h
  by_cases hm : '-' ∈ base
  · rw [if_pos hm] at hrun
    rcases hmd : matchDescribe base with _ | ⟨t, num, hex⟩
    · rw [hmd] at hrun
      have ht : ¬ Tagged base := by
        rintro ⟨t, num, hex, hp, rfl | rfl⟩
        · rw [matchDescribe_text hp] at hmd; cases hmd
        · have : matchDescribe (describeText t num hex ++ ['\n']) = matchDescribe (describeText t num hex) := by
            obtain ⟨c, hc, hl⟩ := hex_last hp
            have a1 : chomp (describeText t num hex ++ ['\n']) = describeText t num hex := by simp [chomp]
            have a2 : chomp (describeText t num hex) = describeText t num hex := by
              unfold chomp
              rw [if_neg]
              rw [hl]
              rintro ⟨⟩
              exact absurd hc (by decide)
            simp only [matchDescribe, a1, a2]
          rw [this, matchDescribe_text hp] at hmd; cases hmd
      refine iff_of_false (okr _ (by rw [hrun]; rfl)) ?_
      rintro (⟨h, -⟩ | ⟨h, -⟩)
      · exact h hm
      · exact ht (h hm)
    · rw [hmd] at hrun
      have ht : Tagged base := ⟨t, num, hex, matchDescribe_some hmd⟩
      have hs : startsWith [] t = true := (startsWith_iff _ _).mpr ⟨t, rfl⟩
      simp only [hs, if_true] at hrun
      rcases hdt : (runCommand g.date).1 with _ | s
      · rw [hdt] at hrun
        exact iff_of_true (err _ (by simp) hrun) (Or.inr ⟨fun _ => ht, hdate' hdt⟩)
      · rw [hdt] at hrun
        have := C98_pep440 full hex dirty (some t) (decimalValue num) (some (isoDate s)) (str "pep440") (Or.inl rfl)
        refine iff_of_false (okr _ (by rw [hrun]; exact this)) ?_
        rintro (⟨h, -⟩ | ⟨-, h⟩)
        · exact h hm
        · exact h (hdate s hdt)
  · rw [if_neg hm] at hrun
    have hno : ('-' ∈ base → Tagged base) := fun h => absurd h hm
    rcases hct : (runCommand g.count).1 with _ | c
    · rw [hct] at hrun
      refine iff_of_true (err _ (by simp) hrun) (Or.inl ⟨hm, ?_⟩)
      rintro ⟨c, hc, -⟩
      rw [runCommand_answers hc] at hct; cases hct
    · rw [hct] at hrun
      dsimp only at hrun
      have hc : Answers g.count c := (answers_iff _ _).mp (runCommand_some hct)
      have hint : pyInt c = if c ≠ [] ∧ c.all isDigit then .ok (decimalValue c) else .error .valueError := by
        unfold pyInt; rw [hc.strip]
      by_cases hnum : c ≠ [] ∧ c.all isDigit = true
      · rw [hint, if_pos hnum] at hrun
        have hyes : ∃ c, Answers g.count c ∧ c ≠ [] ∧ ∀ x ∈ c, isDigit x = true := ⟨c, hc, hnum.1, List.all_eq_true.mp hnum.2⟩
        rcases hdt : (runCommand g.date).1 with _ | s
        · rw [hdt] at hrun
          exact iff_of_true (err _ (by simp) hrun) (Or.inr ⟨hno, hdate' hdt⟩)
        · rw [hdt] at hrun
          have := C98_pep440 full (full.take 7) dirty none (decimalValue c) (some (isoDate s)) (str "pep440") (Or.inl rfl)
          refine iff_of_false (okr _ (by rw [hrun]; exact this)) ?_
          rintro (⟨-, h⟩ | ⟨-, h⟩)
          · exact h hyes
          · exact h (hdate s hdt)
      · rw [hint, if_neg hnum] at hrun
        refine iff_of_true (err _ (by simp) hrun) (Or.inl ⟨hm, ?_⟩)
        rintro ⟨c', hc', h1, h2⟩
        have : c' = c := by
          rw [runCommand_answers hc'] at hct
          exact Option.some.inj hct
        subst this
        exact hnum ⟨h1, List.all_eq_true.mpr h2⟩

/-! ## C101 -/

theorem quoted_line (a v b : Str) (ha : '=' ∉ a) (hv : '\n' ∉ v) (hb : ∀ c ∈ b, c = '\n') :
    quoted (a ++ str "= \"" ++ v ++ str "\"" ++ b) = some v := by
  induction a with
  | cons c l ih =>
    rw [List.mem_cons, not_or] at ha
    have e : (c :: l) ++ str "= \"" ++ v ++ str "\"" ++ b = c :: (l ++ str "= \"" ++ v ++ str "\"" ++ b) := rfl
    rw [e, quoted]
    simp only [Ne.symm ha.1, if_false]
    exact ih ha.2
  | nil =>
    have e : [] ++ str "= \"" ++ v ++ str "\"" ++ b = '=' :: ' ' :: '"' :: (v ++ '"' :: b) := by simp [str]
    have d1 : (' ' :: '"' :: (v ++ '"' :: b)).dropWhile isSpace = '"' :: (v ++ '"' :: b) := by
      rw [List.dropWhile_cons, if_pos (by decide), List.dropWhile_cons, if_neg (by decide)]
    have d2 : (v ++ '"' :: b).takeWhile (· ≠ '\n') = v ++ ['"'] := by
      have : v ++ '"' :: b = (v ++ ['"']) ++ b := by simp
      rw [this]
      cases b with
      | nil =>
        rw [List.append_nil, List.takeWhile_eq_self_iff]
        intro c hc
        rcases List.mem_append.mp hc with h | h
        · simpa using fun (e : c = '\n') => hv (e ▸ h)
        · rw [List.mem_singleton] at h; subst h; decide
      | cons x b =>
        have hx := hb x (by simp)
        subst hx
        exact (span_append (p := fun c => c ≠ '\n') (by
          intro c hc
          rcases List.mem_append.mp hc with h | h
          · simpa using fun (e : c = '\n') => hv (e ▸ h)
          · rw [List.mem_singleton] at h; subst h; decide) (by simp)).1
    rw [e, quoted]
    simp only [if_true, d1, d2, List.reverse_append, List.reverse_cons, List.reverse_nil, List.nil_append, List.cons_append]
    rw [List.dropWhile_cons, if_neg (by simp)]
    simp

/-- A line `indent name = "value"` with its line feed. -/
def assignment (indent name value : Str) : Str := indent ++ name ++ str " = \"" ++ value ++ str "\"\n"

/-- The variables the keywords are read from. -/
def keywordNames : List Str := [str "git_refnames", str "git_full", str "git_date"]

theorem strip_assignment (indent name value : Str) (hi : ∀ c ∈ indent, isSpace c = true) (hn : name ∈ keywordNames) :
    strip (assignment indent name value) = name ++ str " = \"" ++ value ++ str "\"" := by
  have : assignment indent name value = indent ++ (name ++ str " = \"" ++ value ++ str "\"") ++ ['\n'] := by simp [assignment, str]
  rw [this]
  refine strip_pad ⟨fun c hc => ?_, fun c hc => ?_⟩ (by simp [str]) hi (by decide)
  · have : c = 'g' := by
      simp only [keywordNames, List.mem_cons, List.not_mem_nil, or_false] at hn
      rcases hn with rfl | rfl | rfl <;> simpa [str] using hc.symm
    subst this; decide
  · rw [List.getLast?_append_of_ne_nil _ (by simp [str])] at hc
    have : c = '"' := by simpa [str] using hc.symm
    subst this; decide

theorem quoted_assignment (indent name value : Str) (hi : ∀ c ∈ indent, isSpace c = true) (hn : name ∈ keywordNames) (hv : '\n' ∉ value) :
    quoted (assignment indent name value) = some value := by
  have : assignment indent name value = (indent ++ name ++ [' ']) ++ str "= \"" ++ value ++ str "\"" ++ ['\n'] := by simp [assignment, str]
  rw [this]
  refine quoted_line _ value _ ?_ hv (by simp)
  simp only [List.mem_append, not_or]
  refine ⟨⟨fun h => absurd (hi _ h) (by decide), ?_⟩, by decide⟩
  simp only [keywordNames, List.mem_cons, List.not_mem_nil, or_false] at hn
  rcases hn with rfl | rfl | rfl <;> decide

theorem keywordLine_assignment (k : Keywords) (indent value : Str) (hi : ∀ c ∈ indent, isSpace c = true) (hv : '\n' ∉ value) :
    keywordLine k (assignment indent (str "git_refnames") value) = { k with refnames := some value } ∧
    keywordLine k (assignment indent (str "git_full") value) = { k with full := some value } ∧
    keywordLine k (assignment indent (str "git_date") value) = { k with date := some value } := by
  refine ⟨?_, ?_, ?_⟩
  · have h1 := strip_assignment indent (str "git_refnames") value hi (by decide)
    have h2 := quoted_assignment indent (str "git_refnames") value hi (by decide) hv
    simp only [keywordLine, h1, h2]
    rfl
  · have h1 := strip_assignment indent (str "git_full") value hi (by decide)
    have h2 := quoted_assignment indent (str "git_full") value hi (by decide) hv
    simp only [keywordLine, h1, h2]
    rfl
  · have h1 := strip_assignment indent (str "git_date") value hi (by decide)
    have h2 := quoted_assignment indent (str "git_date") value hi (by decide) hv
    simp only [keywordLine, h1, h2]
    rfl

/-- A line that assigns none of the three variables. -/
def Other (line : Str) : Prop := ∀ n ∈ keywordNames, ¬ ∃ t, strip line = n ++ str " =" ++ t

theorem keywordLine_other (k : Keywords) (line : Str) (h : Other line) : keywordLine k line = k := by
  have e : ∀ n ∈ keywordNames, startsWith (n ++ str " =") (strip line) = false := by
    intro n hn
    rw [Bool.eq_false_iff, ne_eq, startsWith_iff]
    exact h n hn
  have h1 : startsWith (str "git_refnames =") (strip line) = false := e (str "git_refnames") (by decide)
  have h2 : startsWith (str "git_full =") (strip line) = false := e (str "git_full") (by decide)
  have h3 : startsWith (str "git_date =") (strip line) = false := e (str "git_date") (by decide)
  simp [keywordLine, h1, h2, h3]

theorem foldl_other (k : Keywords) (l : List Str) (h : ∀ x ∈ l, Other x) : l.foldl keywordLine k = k := by
  induction l with
  | nil => rfl
  | cons x l ih => rw [List.foldl_cons, keywordLine_other k x (h x (by simp)), ih fun y hy => h y (List.mem_cons_of_mem _ hy)]

/-- C101: `git_get_keywords` reads back whatever git substituted into the three assignments of the file, quotes and equal signs included. -/
theorem C101_keywords_read_back (l1 l2 l3 l4 : List Str) (indent refnames full date : Str) (hi : ∀ c ∈ indent, isSpace c = true)
    (h1 : ∀ x ∈ l1 ++ l2 ++ l3 ++ l4, Other x) (hr : '\n' ∉ refnames) (hf : '\n' ∉ full) (hd : '\n' ∉ date) :
    gitGetKeywords (some (l1 ++ assignment indent (str "git_refnames") refnames :: (l2 ++ assignment indent (str "git_full") full ::
      (l3 ++ assignment indent (str "git_date") date :: l4)))) = ⟨some refnames, some full, some date⟩ := by
  simp only [List.mem_append] at h1
  simp only [gitGetKeywords, Option.getD_some, List.foldl_append, List.foldl_cons]
  rw [foldl_other _ l1 (fun x hx => h1 x (by simp [hx])), (keywordLine_assignment _ indent refnames hi hr).1,
    foldl_other _ l2 (fun x hx => h1 x (by simp [hx])), (keywordLine_assignment _ indent full hi hf).2.1,
    foldl_other _ l3 (fun x hx => h1 x (by simp [hx])), (keywordLine_assignment _ indent date hi hd).2.2,
    foldl_other _ l4 (fun x hx => h1 x (by simp [hx]))]

/-- C101: a file that cannot be opened gives no keywords, and no keywords are rejected. -/
theorem C101_no_file (tagPrefix : Str) : gitGetKeywords none = ⟨none, none, none⟩ ∧
    gitVersionsFromKeywords (gitGetKeywords none) tagPrefix = .error .notThisMethod := ⟨rfl, rfl⟩

/-- C101: otherwise the method does not apply. -/
theorem C101_parentdir_none (parentdirPrefix : Str) (root : List Str) (h : ∀ i < 3, ¬ ∃ u, root.getD i [] = parentdirPrefix ++ u) :
    versionsFromParentdir parentdirPrefix root = .error .notThisMethod := by
  have hf : ((List.range 3).map fun i => root.getD i []).find? (startsWith parentdirPrefix) = none := by
    rw [List.find?_eq_none]
    intro x hx
    rw [List.mem_map] at hx
    obtain ⟨i, hi, rfl⟩ := hx
    rw [startsWith_iff]
    exact h i (List.mem_range.mp hi)
  unfold versionsFromParentdir
  rw [hf]

/-! ## Non-vacuity -/

example : getVersions (some [str "_version.py", str "pyotf", str "src"]) demoGit =
    .ok ⟨str "v1-rc+2.g0a1b2c3.dirty", some (str "0a1b2c3d4e"), some true, none, some (str "2020-01-02T03:04:05+0100")⟩ := by
  have h2 : decimal 2 = str "2" := by simp [decimal, str]
  have := C100_tagged [str "_version.py", str "pyotf", str "src"] demoGit (str "v1-rc") 2 (str "0a1b2c3") true (str "0a1b2c3d4e")
    (str "2020-01-02 03:04:05 +0100") (by decide) (by decide) (by decide) (by decide) ⟨str ".git", [], _, [], rfl, by simp, by decide⟩
    ⟨[.notFound], _, [], rfl, by simp, by simp only [describeOut, h2]; decide⟩ ⟨[], _, [], rfl, by simp, by decide⟩
    ⟨[], _, [], rfl, by simp, by decide⟩
  rw [this]
  simp only [pep440, str, h2]
  decide

/-- Importing the package fails in a checkout whose commit date git cannot tell. -/
example : ∃ e, getVersions (some [str "_version.py", str "pyotf"]) { demoGit with date := [.ran 1 []] } = .error e := by
  refine (C100_raises_iff _ _ (str "v1-rc-2-g0a1b2c3-dirty") (str "v1-rc-2-g0a1b2c3") (str "0a1b2c3d4e") true (by decide) (by simp)
    ⟨str ".git", [], _, [], rfl, by simp, by decide⟩ ⟨[.notFound], _, [], rfl, by simp, by decide⟩ ⟨[], _, [], rfl, by simp, by decide⟩).mpr
    (Or.inr ⟨fun _ => ⟨str "v1-rc", str "2", str "0a1b2c3", ⟨by decide, by decide, by decide, by decide, by decide, by decide⟩, Or.inl (by decide)⟩, ?_⟩)
  rintro ⟨s, hs⟩
  have := runCommand_answers hs
  simp [runCommand] at this

/-- The lines of the committed file around the keywords. -/
example : gitGetKeywords (some ([str "def get_keywords():\n"] ++ assignment (str "    ") (str "git_refnames") (str "$Format:%d$") :: ([] ++
    assignment (str "    ") (str "git_full") (str "$Format:%H$") :: ([] ++ assignment (str "    ") (str "git_date") (str "$Format:%ci$") ::
    [str "    return keywords\n"])))) = getKeywords := by
  refine C101_keywords_read_back _ _ _ _ (str "    ") _ _ _ (by decide) ?_ (by decide) (by decide) (by decide)
  intro x hx n hn
  rw [← startsWith_iff, Bool.not_eq_true]
  simp only [List.append_nil, List.singleton_append, List.mem_cons, List.not_mem_nil, or_false] at hx
  simp only [keywordNames, List.mem_cons, List.not_mem_nil, or_false] at hn
  rcases hx with rfl | rfl <;> rcases hn with rfl | rfl | rfl <;> decide

end PyOTF.Version
