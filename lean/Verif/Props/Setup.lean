import Verif.Model.Setup
import Mathlib.Data.List.Nodup

/-!
# C117, C118: the build script

C117: every Cython file of the package becomes one extension module built from that file. False for
file or directory names with a point in them, since the source is found again from the module name;
true for all others.

C118: the directory that generated code is put into is the one the user gave with `--build-lib`.
False: only the form `--build-lib=DIR` is understood, and only if `DIR` contains no `=`.
-/

namespace KML

open Setup

mutual

/-- The paths of all Cython files, `dir` being the path of the directory. -/
def Spec.pyxPaths (dir : Text) : List Entry → List Text
  | [] => []
  | e :: es => Spec.pyxPath dir e ++ Spec.pyxPaths dir es

/-- Those of one entry. -/
def Spec.pyxPath (dir : Text) : Entry → List Text
  | .file name => if ".pyx".toList <:+ dir ++ '/' :: name then [dir ++ '/' :: name] else []
  | .dir name entries => Spec.pyxPaths (dir ++ '/' :: name) entries

end

/-- C117 as claimed: the sources of the extensions are the Cython files. -/
def C117_full : Prop :=
  ∀ (root : Text) (entries : List Entry),
    (extensions root entries).map Prod.snd =
      (Spec.pyxPaths "kml".toList entries).map ("tools/cython/".toList ++ ·)

/-- `kml/fast.mean.pyx` is looked for as `kml/fast/mean.pyx`. -/
theorem C117_violated : ¬ C117_full := by
  intro h
  have := h "/repo/tools/cython".toList [.file "fast.mean.pyx".toList]
  revert this
  decide +kernel

theorem removeAll_none {pat : Text} : ∀ (fuel : ℕ) (s : Text), ¬ pat <:+: s →
    removeAll pat fuel s = s
  | 0, _, _ => rfl
  | _ + 1, [], _ => rfl
  | fuel + 1, c :: s, h => by
    have h1 : ¬ pat <+: c :: s := fun hp => h hp.isInfix
    have h2 : ¬ pat <:+: s := fun hp => h (hp.trans (List.infix_cons (List.infix_refl s)))
    rw [removeAll, if_neg (by simpa using h1), removeAll_none fuel s h2]

theorem removeAll_once {pat s : Text} (hp : pat ≠ []) (h : ¬ pat <:+: s) :
    removeAll pat (pat ++ s).length (pat ++ s) = s := by
  cases hs : pat ++ s with
  | nil => simp at hs; exact absurd hs.1 hp
  | cons c t =>
    rw [List.length_cons, removeAll, ← hs, if_pos (by simp), List.drop_left]
    exact removeAll_none _ _ h

/-- The module name of the file `root/r.pyx`: the path `r` with points for slashes. -/
theorem moduleName_eq {root r : Text} (h : ¬ root ++ ['/'] <:+: r ++ pyx) :
    moduleName root (root ++ '/' :: (r ++ pyx)) = replaceChar '/' '.' r := by
  unfold moduleName
  have e : root ++ '/' :: (r ++ pyx) = (root ++ ['/']) ++ (r ++ pyx) := by simp
  rw [e, removeAll_once (by simp) h]
  simp [replaceChar, pyx]

/-- Going to the module name and back gives the path back exactly when it has no point. -/
theorem replaceChar_back (r : Text) :
    replaceChar '.' '/' (replaceChar '/' '.' r) = r ↔ '.' ∉ r := by
  induction r with
  | nil => simp [replaceChar]
  | cons c r ih =>
    simp only [replaceChar, List.map_cons, List.cons.injEq, List.mem_cons, not_or] at *
    rw [ih]
    have : (if (if c = '/' then '.' else c) = '.' then '/' else if c = '/' then '.' else c) = c ↔
        ¬ '.' = c := by
      by_cases h1 : c = '/'
      · subst h1; decide
      · by_cases h2 : c = '.'
        · subst h2; decide
        · simp only [if_neg h1, if_neg h2, true_iff]
          exact fun h => h2 h.symm
    rw [this]

mutual

theorem scanDir_eq (root dir : Text) : ∀ (es : List Entry),
    scanDir root (root ++ '/' :: dir) es =
      (Spec.pyxPaths dir es).map fun p => moduleName root (root ++ '/' :: p)
  | [] => by simp [scanDir, Spec.pyxPaths]
  | e :: es => by
    rw [scanDir, Spec.pyxPaths, List.map_append, scanEntry_eq root dir e, scanDir_eq root dir es]

theorem scanEntry_eq (root dir : Text) : ∀ (e : Entry),
    scanEntry root (root ++ '/' :: dir) e =
      (Spec.pyxPath dir e).map fun p => moduleName root (root ++ '/' :: p)
  | .file name => by
    have e : root ++ '/' :: dir ++ '/' :: name = root ++ '/' :: (dir ++ '/' :: name) := by simp
    have hs : pyx.isSuffixOf (root ++ '/' :: (dir ++ '/' :: name)) = true ↔
        ".pyx".toList <:+ dir ++ '/' :: name := by
      rw [List.isSuffixOf_iff_suffix]
      constructor
      · intro h
        have h2 : dir ++ '/' :: name <:+ root ++ '/' :: (dir ++ '/' :: name) :=
          ⟨root ++ ['/'], by simp⟩
        rcases List.suffix_or_suffix_of_suffix h h2 with h3 | h3
        · exact h3
        · -- a path with a slash is not a suffix of `.pyx`
          have : '/' ∈ pyx := h3.subset (by simp)
          simp [pyx] at this
      · intro h
        exact h.trans ⟨root ++ ['/'], by simp⟩
    rw [scanEntry, Spec.pyxPath]
    simp only [e]
    by_cases h : ".pyx".toList <:+ dir ++ '/' :: name
    · rw [if_pos h, if_pos (hs.mpr h)]; rfl
    · rw [if_neg h, if_neg (fun h' => h (hs.mp h'))]; rfl
  | .dir name entries => by
    have e : root ++ '/' :: dir ++ '/' :: name = root ++ '/' :: (dir ++ '/' :: name) := by simp
    rw [scanEntry, Spec.pyxPath, e]
    exact scanDir_eq root (dir ++ '/' :: name) entries

end

mutual

/-- Every path listed ends in `.pyx`. -/
theorem pyxPaths_pyx (dir : Text) : ∀ (es : List Entry), ∀ p ∈ Spec.pyxPaths dir es, ∃ r, p = r ++ pyx
  | [], p, hp => by simp [Spec.pyxPaths] at hp
  | e :: es, p, hp => by
    rw [Spec.pyxPaths] at hp
    rcases List.mem_append.mp hp with h | h
    · exact pyxPath_pyx dir e p h
    · exact pyxPaths_pyx dir es p h

theorem pyxPath_pyx (dir : Text) : ∀ (e : Entry), ∀ p ∈ Spec.pyxPath dir e, ∃ r, p = r ++ pyx
  | .file name, p, hp => by
    rw [Spec.pyxPath] at hp
    split at hp
    · rename_i h
      obtain ⟨r, hr⟩ := h
      simp only [List.mem_singleton] at hp
      exact ⟨r, by rw [hp, ← hr]; rfl⟩
    · simp at hp
  | .dir name entries, p, hp => by
    rw [Spec.pyxPath] at hp
    exact pyxPaths_pyx _ entries p hp

end

/-- **C117.** Let no path below the package contain the path of the package directory itself. Then
the extensions are the Cython files in the order they were found. The name is the path with points
for slashes; the source is the file exactly when there is no point before the `.pyx`. -/
theorem C117_partial (root : Text) (entries : List Entry)
    (hroot : ∀ p ∈ Spec.pyxPaths "kml".toList entries, ¬ root ++ ['/'] <:+: p) :
    List.Forall₂ (fun x p => ∃ r, p = r ++ ".pyx".toList ∧ x.1 = replaceChar '/' '.' r ∧
        (x.2 = "tools/cython/".toList ++ p ↔ '.' ∉ r))
      (extensions root entries) (Spec.pyxPaths "kml".toList entries) := by
  have h := scanDir_eq root "kml".toList entries
  unfold extensions
  have e : root ++ "/kml".toList = root ++ '/' :: "kml".toList := rfl
  rw [e, h, List.map_map]
  have hp := pyxPaths_pyx "kml".toList entries
  generalize Spec.pyxPaths "kml".toList entries = ps at hroot hp
  induction ps with
  | nil => exact .nil
  | cons p ps ih =>
    refine .cons ?_ (ih (fun q hq => hroot q (by simp [hq])) (fun q hq => hp q (by simp [hq])))
    obtain ⟨r, rfl⟩ := hp p (by simp)
    refine ⟨r, rfl, ?_, ?_⟩
    · exact moduleName_eq (hroot _ (by simp))
    · simp only [Function.comp]
      rw [moduleName_eq (hroot _ (by simp)), List.append_cancel_left_eq,
        List.append_cancel_right_eq]
      exact replaceChar_back r

/-- No point in a name: every Cython file is built, once, under a name of its own. -/
theorem C117_plain_partial (root : Text) (entries : List Entry)
    (hroot : ∀ p ∈ Spec.pyxPaths "kml".toList entries, ¬ root ++ ['/'] <:+: p)
    (hplain : ∀ p ∈ Spec.pyxPaths "kml".toList entries, ∀ r, p = r ++ ".pyx".toList → '.' ∉ r) :
    (extensions root entries).map Prod.snd =
        (Spec.pyxPaths "kml".toList entries).map ("tools/cython/".toList ++ ·) ∧
      ((Spec.pyxPaths "kml".toList entries).Nodup →
        ((extensions root entries).map Prod.fst).Nodup) := by
  have h := C117_partial root entries hroot
  have h1 : (extensions root entries).map Prod.snd =
      (Spec.pyxPaths "kml".toList entries).map ("tools/cython/".toList ++ ·) := by
    generalize extensions root entries = xs at h
    generalize Spec.pyxPaths "kml".toList entries = ps at h hplain
    induction h with
    | nil => rfl
    | cons hx _ ih =>
      obtain ⟨r, hr, _, h2⟩ := hx
      rw [List.map_cons, List.map_cons, h2.mpr (hplain _ (by simp) r hr),
        ih (fun q hq => hplain q (by simp [hq]))]
  refine ⟨h1, fun hn => ?_⟩
  -- the source is a function of the name, and the sources are different
  have h2 : (extensions root entries).map Prod.snd =
      ((extensions root entries).map Prod.fst).map
        fun name => "tools/cython/".toList ++ (replaceChar '.' '/' name ++ pyx) := by
    simp [extensions, List.map_map, Function.comp_def]
  rw [h1] at h2
  have h3 : ((Spec.pyxPaths "kml".toList entries).map ("tools/cython/".toList ++ ·)).Nodup :=
    hn.map (fun a b hab => List.append_cancel_left hab)
  rw [h2] at h3
  exact h3.of_map _

/-- The package as it is in the repository (the names of other files left out). -/
def Spec.package : List Entry :=
  [.file "README.rst".toList, .file "__init__.py".toList,
   .dir "data_structures".toList
    [.file "LinkedList.pxd".toList, .file "LinkedList.pyx".toList, .file "RingBuffer.pxd".toList,
     .file "RingBuffer.pyx".toList, .file "__init__.py".toList,
     .dir "histograms".toList
      [.file "StreamingHistogram.pxd".toList, .file "StreamingHistogram.pyx".toList,
       .file "__init__.py".toList]],
   .dir "metrics".toList
    [.file "StreamingMAD.pxd".toList, .file "StreamingMAD.pyx".toList, .file "__init__.py".toList],
   .dir "statistics".toList
    [.file "__init__.py".toList,
     .dir "summary".toList
      [.file "StreamingEntropy.pyx".toList, .file "StreamingIQR.pyx".toList,
       .file "StreamingMean.pyx".toList, .file "StreamingP2Quantile.pyx".toList,
       .file "StreamingVariance.pyx".toList, .file "WindowedFAME.pyx".toList,
       .file "WindowedP2Quantile.pyx".toList, .file "__init__.py".toList]]]

/-- The modules of the package: the eleven names that the Python tests import. -/
theorem C117_package_partial :
    (extensions "/repo/tools/cython".toList Spec.package).map Prod.fst =
      ["kml.data_structures.LinkedList".toList, "kml.data_structures.RingBuffer".toList,
       "kml.data_structures.histograms.StreamingHistogram".toList,
       "kml.metrics.StreamingMAD".toList, "kml.statistics.summary.StreamingEntropy".toList,
       "kml.statistics.summary.StreamingIQR".toList, "kml.statistics.summary.StreamingMean".toList,
       "kml.statistics.summary.StreamingP2Quantile".toList,
       "kml.statistics.summary.StreamingVariance".toList,
       "kml.statistics.summary.WindowedFAME".toList,
       "kml.statistics.summary.WindowedP2Quantile".toList] := by
  decide +kernel

/-- The package meets the first hypothesis of `C117_plain_partial`. -/
example : ∀ p ∈ Spec.pyxPaths "kml".toList Spec.package, ¬ "/repo/tools/cython".toList ++ ['/'] <:+: p := by
  decide +kernel

/-- And the second. -/
example : ∀ p ∈ Spec.pyxPaths "kml".toList Spec.package, ∀ r, p = r ++ ".pyx".toList → '.' ∉ r := by
  have h : ∀ p ∈ Spec.pyxPaths "kml".toList Spec.package, '.' ∉ p.take (p.length - 4) := by
    decide +kernel
  rintro p hp r rfl
  simpa using h _ hp

/-! ## The build directory -/

/-- The forms in which the command `build_ext` takes its build directory. -/
inductive Spec.GivesDir (d : Text) : List Text → Prop
  | eq : GivesDir d ["--build-lib=".toList ++ d]
  | sep : GivesDir d ["--build-lib".toList, d]
  | short : GivesDir d ["-b".toList, d]

/-- C118 as claimed: the directory given is the one used. -/
def C118_full : Prop :=
  ∀ (d : Text) (args : List Text), Spec.GivesDir d args →
    buildLib ("setup.py".toList :: "build_ext".toList :: args) = .ok d

/-- `setup.py build_ext --build-lib out` puts the generated code into a directory called
`--build-lib`. -/
theorem C118_violated : ¬ C118_full := by
  intro h
  have := h "out".toList _ .sep
  revert this
  decide +kernel

theorem buildLibLoop_cons (acc a : Text) (rest : List Text) :
    buildLibLoop acc (a :: rest) =
      if a = "build_ext".toList then
        match (a :: rest).find? ("--build-lib".toList.isPrefixOf ·) with
        | some b => buildLibLoop (afterEq b) rest
        | none => buildLibLoop acc rest
      else if "-w".toList.isPrefixOf a then
        match rest with
        | [] => .throw "IndexError"
        | v :: _ => .ok v
      else buildLibLoop acc rest := rfl

theorem buildLibLoop_nil (acc : Text) : buildLibLoop acc [] = .ok acc := rfl

/-- The separate form never works, unless the directory is called `--build-lib`. -/
theorem C118_separate (d : Text) (hd : d ≠ "build_ext".toList) (hw : ¬ "-w".toList <+: d) :
    buildLib ["setup.py".toList, "build_ext".toList, "--build-lib".toList, d] =
      .ok "--build-lib".toList := by
  rw [buildLib, buildLibLoop_cons, if_neg (by decide), if_neg (by decide), buildLibLoop_cons,
    if_pos rfl]
  have : (["build_ext".toList, "--build-lib".toList, d].find?
      ("--build-lib".toList.isPrefixOf ·)) = some "--build-lib".toList := rfl
  rw [this]
  simp only
  rw [buildLibLoop_cons, if_neg (by decide), if_neg (by decide), buildLibLoop_cons, if_neg hd,
    if_neg (by simpa using hw)]
  rfl

/-- `pip wheel -w` without a directory: the script itself raises `IndexError`. -/
theorem C118_index : buildLib ["setup.py".toList, "-w".toList] = .throw "IndexError" := by
  decide +kernel

theorem afterEq_append {a d : Text} (hd : '=' ∉ d) : afterEq (a ++ '=' :: d) = d := by
  unfold afterEq
  rw [List.reverse_append, List.reverse_cons, List.append_assoc,
    List.takeWhile_append_of_pos (by intro c hc; simp; rintro rfl; exact hd (by simpa using hc))]
  simp

/-- A run of arguments that mean nothing to `get_buildlib`. -/
theorem buildLibLoop_skip (acc : Text) (post : List Text) : ∀ (pre : List Text),
    (∀ a ∈ pre, a ≠ "build_ext".toList ∧ ¬ "-w".toList <+: a) →
    buildLibLoop acc (pre ++ post) = buildLibLoop acc post
  | [], _ => rfl
  | a :: pre, h => by
    have ha := h a (by simp)
    rw [List.cons_append, buildLibLoop_cons, if_neg ha.1, if_neg (by simpa using ha.2)]
    exact buildLibLoop_skip acc post pre (fun b hb => h b (by simp [hb]))

/-- **C118.** With one `build_ext` and no argument that starts with `-w`: the result is what follows
the last `=` of the first argument that starts with `--build-lib` after the command, or `./build` if
there is none. -/
theorem C118_partial (pre post : List Text)
    (hpre : ∀ a ∈ pre, a ≠ "build_ext".toList ∧ ¬ "-w".toList <+: a)
    (hpost : ∀ a ∈ post, a ≠ "build_ext".toList ∧ ¬ "-w".toList <+: a) :
    ((∀ a ∈ post, ¬ "--build-lib".toList <+: a) →
      buildLib (pre ++ "build_ext".toList :: post) = .ok "./build".toList) ∧
    (∀ mid d rest, post = mid ++ ("--build-lib=".toList ++ d) :: rest →
      (∀ a ∈ mid, ¬ "--build-lib".toList <+: a) → '=' ∉ d →
      buildLib (pre ++ "build_ext".toList :: post) = .ok d) := by
  have hend : ∀ acc, buildLibLoop acc post = .ok acc := by
    intro acc
    have := buildLibLoop_skip acc [] post hpost
    rw [List.append_nil] at this
    rw [this, buildLibLoop_nil]
  have h0 : ("--build-lib".toList.isPrefixOf "build_ext".toList) = false := by decide
  constructor
  · intro hno
    unfold buildLib
    rw [buildLibLoop_skip _ _ pre hpre, buildLibLoop_cons, if_pos rfl]
    have : ("build_ext".toList :: post).find? ("--build-lib".toList.isPrefixOf ·) = none := by
      rw [List.find?_eq_none]
      intro a ha
      rcases List.mem_cons.mp ha with h | h
      · rw [h, h0]; simp
      · simpa using hno a h
    rw [this]
    exact hend _
  · intro mid d rest hp hmid hd
    unfold buildLib
    rw [buildLibLoop_skip _ _ pre hpre, buildLibLoop_cons, if_pos rfl]
    have : ("build_ext".toList :: post).find? ("--build-lib".toList.isPrefixOf ·) =
        some ("--build-lib=".toList ++ d) := by
      rw [hp, List.find?_cons_of_neg (by simp), List.find?_append]
      have hm : mid.find? ("--build-lib".toList.isPrefixOf ·) = none := by
        rw [List.find?_eq_none]
        intro a ha
        simpa using hmid a ha
      rw [hm, Option.none_or, List.find?_cons_of_pos]
      rw [List.isPrefixOf_iff_prefix]
      exact ⟨'=' :: d, rfl⟩
    rw [this]
    have e : "--build-lib=".toList ++ d = "--build-lib".toList ++ '=' :: d := rfl
    simp only [e, afterEq_append hd]
    exact hend _

/-- `setup.py build_ext --inplace --build-lib=out`. -/
example : buildLib (["setup.py".toList] ++ "build_ext".toList ::
    ["--inplace".toList, "--build-lib=out".toList]) = .ok "out".toList :=
  (C118_partial ["setup.py".toList] ["--inplace".toList, "--build-lib=out".toList]
    (by decide +kernel) (by decide +kernel)).2 ["--inplace".toList] "out".toList [] rfl
    (by decide +kernel) (by decide +kernel)

end KML
