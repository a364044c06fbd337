import Verif.Props.Setup

/-!
# C132: the version of the package

The documentation of `get_version` says that the last line of `_version.py` defines the version as a
text in single quotes, and that the version is returned. False: of a text only the first three
characters are used, with points put between them. True for a tuple of up to three parts; of a longer
one the rest is lost, so that a development version is taken for the release.
-/

namespace KML

open Setup

/-- C132 as claimed: the version in quotes on the last line is the one returned. -/
def C132_full : Prop :=
  ∀ (before v : Text), (∀ c ∈ v, c ≠ '\'' ∧ c ≠ '\\' ∧ c ≠ '\n' ∧ c ≠ '=') →
    getVersion (some (before ++ '\n' :: ("version = '".toList ++ v ++ "'\n".toList))) = .ok v

/-- `version = '1.2.3'` is read as version `1...2`. -/
theorem C132_violated : ¬ C132_full := by
  intro h
  have := h "# generated".toList "1.2.3".toList (by decide)
  revert this
  decide +kernel

theorem splitLines_end (l : Text) (h : '\n' ∉ l) : splitLines (l ++ ['\n']) = [l] := by
  induction l with
  | nil => rfl
  | cons c l ih =>
    have hc : c ≠ '\n' := fun e => h (by simp [e])
    rw [List.cons_append, splitLines, if_neg hc, ih (fun m => h (by simp [m]))]

theorem splitLines_append (a b : Text) :
    ∃ ls, ls ≠ [] ∧ splitLines (a ++ '\n' :: b) = ls ++ splitLines b := by
  induction a with
  | nil => exact ⟨[[]], by simp, rfl⟩
  | cons c a ih =>
    obtain ⟨ls, hne, h⟩ := ih
    rw [List.cons_append, splitLines, h]
    by_cases hc : c = '\n'
    · rw [if_pos hc]; exact ⟨[] :: ls, by simp, rfl⟩
    · rw [if_neg hc]
      cases ls with
      | cons l ls => exact ⟨(c :: l) :: ls, by simp, rfl⟩
      | nil => exact absurd rfl hne

/-- The last line is what is read. -/
theorem getVersion_line (before name lit : Text) (hname : '\n' ∉ name) (hlit : '\n' ∉ lit)
    (heq : '=' ∉ lit) (hblank : lit.head? ≠ some ' ') :
    getVersion (some (before ++ '\n' :: (name ++ '=' :: ' ' :: lit ++ ['\n']))) =
      (literalEval lit >>= fun v => firstThree v >>= fun parts =>
        .ok (List.intercalate ['.'] parts)) := by
  obtain ⟨ls, _, h⟩ := splitLines_append before (name ++ '=' :: ' ' :: lit ++ ['\n'])
  rw [splitLines_end _ (by simp [hname, hlit])] at h
  unfold getVersion
  simp only [h, List.getLast?_append, List.getLast?_singleton, Option.some_or]
  rw [afterEq_append (by simp [heq])]
  have hd : (' ' :: lit).dropWhile (fun c => decide (c = ' ')) = lit := by
    rw [List.dropWhile_cons_of_pos (by decide)]
    cases lit with
    | nil => rfl
    | cons c l =>
      refine List.dropWhile_cons_of_neg ?_
      simpa using hblank
  rw [hd]
  rfl

/-- A text in quotes as Python prints it. -/
def Spec.quoted (v : Text) : Text := '\'' :: (v ++ ['\''])

theorem parseItem_quoted (v rest : Text) (h : ∀ c ∈ v, c ≠ '\'' ∧ c ≠ '\\') :
    parseItem (Spec.quoted v ++ rest) = some (.str v, rest) := by
  have hq : ∀ c ∈ v, decide (c ≠ '\'') = true := fun c hc => by simpa using (h c hc).1
  have ht : (v ++ '\'' :: rest).takeWhile (fun c => decide (c ≠ '\'')) = v := by
    rw [List.takeWhile_append_of_pos hq]; simp
  have hd : (v ++ '\'' :: rest).dropWhile (fun c => decide (c ≠ '\'')) = '\'' :: rest := by
    rw [List.dropWhile_append_of_pos hq]; simp
  have hb : '\\' ∉ v := fun m => (h _ m).2 rfl
  simp only [Spec.quoted, List.cons_append, List.append_assoc, List.nil_append, parseItem,
    if_true, ht, hd, hb, if_false]

/-- A number as Python prints it. -/
def Spec.Decimal (d : Text) : Prop :=
  d ≠ [] ∧ (∀ c ∈ d, c.isDigit = true) ∧ (d.head? = some '0' → d = ['0'])

theorem parseItem_num (d rest : Text) (h : Spec.Decimal d)
    (hr : ∀ c, rest.head? = some c → c.isDigit = false) :
    parseItem (d ++ rest) = some (.num d, rest) := by
  obtain ⟨hne, hd, hz⟩ := h
  have ht : (d ++ rest).takeWhile Char.isDigit = d := by
    rw [List.takeWhile_append_of_pos hd]
    cases rest with
    | nil => simp
    | cons c r => rw [List.takeWhile_cons_of_neg (by simp [hr c rfl])]; simp
  have hdr : (d ++ rest).dropWhile Char.isDigit = rest := by
    rw [List.dropWhile_append_of_pos hd]
    cases rest with
    | nil => simp
    | cons c r => rw [List.dropWhile_cons_of_neg (by simp [hr c rfl])]
  cases d with
  | nil => exact absurd rfl hne
  | cons c d =>
    rw [List.cons_append] at ht hdr ⊢
    have hq : c ≠ '\'' := by rintro rfl; exact absurd (hd '\'' (by simp)) (by decide)
    simp only [parseItem, if_neg hq, ht, hdr]
    rw [if_neg]
    rintro (h | ⟨h0, h1⟩)
    · exact hne h
    · exact h1 (hz (by simp [h0]))

/-- A part of the version that Python prints as a number or as a text in quotes. -/
def Spec.Part : Item → Prop
  | .num d => Spec.Decimal d
  | .str s => ∀ c ∈ s, c ≠ '\'' ∧ c ≠ '\\' ∧ c ≠ '\n' ∧ c ≠ '='

/-- `repr` of a part. -/
def Spec.repr : Item → Text
  | .num d => d
  | .str s => Spec.quoted s

/-- A part as it stands in the version. -/
def Spec.partText : Item → Text
  | .num d => d
  | .str s => s

theorem parseItem_repr (i : Item) (rest : Text) (h : Spec.Part i)
    (hr : ∀ c, rest.head? = some c → c.isDigit = false) :
    parseItem (Spec.repr i ++ rest) = some (i, rest) := by
  cases i with
  | num d => exact parseItem_num d rest h hr
  | str s => exact parseItem_quoted s rest (fun c hc => ⟨(h c hc).1, (h c hc).2.1⟩)

/-- The parts with `, ` between them and the closing bracket. -/
def Spec.reprs : List Item → Text
  | [] => [')']
  | [i] => Spec.repr i ++ [')']
  | i :: is => Spec.repr i ++ (',' :: ' ' :: Spec.reprs is)

theorem parseItems_reprs : ∀ (fuel : ℕ) (i : Item) (is : List Item), is.length < fuel →
    (∀ j ∈ i :: is, Spec.Part j) → parseItems fuel (Spec.reprs (i :: is)) = some (i :: is)
  | 0, _, _, h, _ => absurd h (by omega)
  | fuel + 1, i, [], _, hp => by
    rw [Spec.reprs, parseItems, parseItem_repr i _ (hp i (by simp)) (by simp)]
    rfl
  | fuel + 1, i, j :: is, hl, hp => by
    rw [Spec.reprs, parseItems, parseItem_repr i _ (hp i (by simp)) (by simp)]
    · simp only
      rw [parseItems_reprs fuel j is (by simpa using hl) (fun k hk => hp k (by simp [hk]))]
      rfl
    · simp

theorem length_reprs : ∀ (is : List Item), is.length ≤ (Spec.reprs is).length
  | [] => by simp [Spec.reprs]
  | [i] => by simp [Spec.reprs]
  | i :: j :: is => by
    have := length_reprs (j :: is)
    simp only [Spec.reprs, List.length_append, List.length_cons] at this ⊢
    omega

theorem repr_clean (i : Item) (h : Spec.Part i) : '\n' ∉ Spec.repr i ∧ '=' ∉ Spec.repr i := by
  cases i with
  | num d =>
    exact ⟨fun m => absurd (h.2.1 _ m) (by decide), fun m => absurd (h.2.1 _ m) (by decide)⟩
  | str s =>
    have h1 : '\n' ∉ s := fun m => (h _ m).2.2.1 rfl
    have h2 : '=' ∉ s := fun m => (h _ m).2.2.2 rfl
    constructor <;> simp [Spec.repr, Spec.quoted, h1, h2]

theorem reprs_clean : ∀ (is : List Item), (∀ j ∈ is, Spec.Part j) →
    '\n' ∉ Spec.reprs is ∧ '=' ∉ Spec.reprs is
  | [], _ => by simp [Spec.reprs]
  | [i], h => by
    have := repr_clean i (h i (by simp))
    simp [Spec.reprs, this]
  | i :: j :: is, h => by
    have h1 := repr_clean i (h i (by simp))
    have h2 := reprs_clean (j :: is) (fun k hk => h k (by simp [hk]))
    constructor <;> simp [Spec.reprs, h1, h2]

/-- **C132**, a text in quotes: its first three characters with points between them. -/
theorem C132_quoted (before name v : Text) (hname : '\n' ∉ name)
    (hv : ∀ c ∈ v, c ≠ '\'' ∧ c ≠ '\\' ∧ c ≠ '\n' ∧ c ≠ '=') :
    getVersion (some (before ++ '\n' :: (name ++ '=' :: ' ' :: Spec.quoted v ++ ['\n']))) =
      .ok (List.intercalate ['.'] ((v.take 3).map fun c => [c])) := by
  have hc : '\n' ∉ Spec.quoted v ∧ '=' ∉ Spec.quoted v := repr_clean (.str v) hv
  rw [getVersion_line before name _ hname hc.1 hc.2 (by simp [Spec.quoted])]
  have : literalEval (Spec.quoted v) = .ok (.item (.str v)) := by
    have h := parseItem_quoted v [] (fun c hc => ⟨(hv c hc).1, (hv c hc).2.1⟩)
    rw [List.append_nil] at h
    unfold literalEval
    split
    · rename_i he; simp [Spec.quoted] at he
    · rw [h]
  rw [this]
  rfl

example : getVersion (some ("# generated\n".toList ++ '\n' ::
    ("version ".toList ++ '=' :: ' ' :: Spec.quoted "10.2".toList ++ ['\n']))) =
    .ok "1.0..".toList :=
  C132_quoted _ _ _ (by decide) (by decide)

/-- The text in quotes is returned unchanged only if it has at most one character, or is one
character followed by four points: never if it is a version. -/
theorem C132_quoted_iff (v : Text) :
    List.intercalate ['.'] ((v.take 3).map fun c => [c]) = v ↔
      v.length ≤ 1 ∨ ∃ c, v = [c, '.', '.', '.', '.'] := by
  match v with
  | [] => simp [List.intercalate]
  | [a] => simp [List.intercalate]
  | [a, b] => simp [List.intercalate]
  | [a, b, c] => simp [List.intercalate]
  | [a, b, c, d] => simp [List.intercalate]
  | [a, b, c, d, e] =>
    simp [List.intercalate]
    constructor
    · rintro ⟨rfl, rfl, rfl, rfl⟩; simp
    · rintro ⟨rfl, rfl, rfl, rfl⟩; simp
  | a :: b :: c :: d :: e :: f :: w => simp [List.intercalate]

/-- **C132**, a tuple of two or more parts, as `setuptools_scm` writes it: the first three with
points between them. For two or three parts that is the whole version. -/
theorem C132_tuple_partial (before name : Text) (a b : Item) (is : List Item)
    (hname : '\n' ∉ name) (hp : ∀ j ∈ a :: b :: is, Spec.Part j) :
    getVersion (some (before ++ '\n' ::
        (name ++ '=' :: ' ' :: ('(' :: Spec.reprs (a :: b :: is)) ++ ['\n']))) =
      .ok (List.intercalate ['.'] (((a :: b :: is).take 3).map Spec.partText)) := by
  have hc := reprs_clean _ hp
  rw [getVersion_line before name _ hname (by simp [hc]) (by simp [hc]) (by simp)]
  have : literalEval ('(' :: Spec.reprs (a :: b :: is)) = .ok (.tuple (a :: b :: is)) := by
    unfold literalEval
    have hl := length_reprs (a :: b :: is)
    simp only
    rw [parseItems_reprs _ a (b :: is) (by simp only [List.length_cons] at hl ⊢; omega) hp]
  rw [this]
  have hs : Item.show = Spec.partText := by funext i; cases i <;> rfl
  rw [← hs]
  rfl

example : getVersion (some ("# generated\n".toList ++ '\n' ::
    ("__version_tuple__ = version_tuple ".toList ++ '=' :: ' ' ::
      ('(' :: Spec.reprs [.num "0".toList, .num "10".toList, .str "dev3".toList]) ++ ['\n']))) =
    .ok "0.10.dev3".toList := by
  refine C132_tuple_partial _ _ _ _ _ (by decide) ?_
  intro j hj
  simp only [List.mem_cons, List.not_mem_nil, or_false] at hj
  rcases hj with rfl | rfl | rfl
  · exact ⟨by decide, by decide, by decide⟩
  · exact ⟨by decide, by decide, by decide⟩
  · show ∀ c ∈ "dev3".toList, _
    decide

/-- What `setuptools_scm` writes for the development version `0.3.0.dev5+g1a2b3c4`. -/
def Spec.devFile : Text :=
  ("# file generated by setuptools_scm\n__version__ = version = '0.3.0.dev5+g1a2b3c4'\n" ++
    "__version_tuple__ = version_tuple = (0, 3, 0, 'dev5', 'g1a2b3c4')\n").toList

/-- What it writes for the release `0.3.0`. -/
def Spec.releaseFile : Text :=
  ("# file generated by setuptools_scm\n__version__ = version = '0.3.0'\n" ++
    "__version_tuple__ = version_tuple = (0, 3, 0)\n").toList

/-- A development version and the release it leads to have the same version. -/
theorem C132_dev : getVersion (some Spec.devFile) = .ok "0.3.0".toList ∧
    getVersion (some Spec.releaseFile) = .ok "0.3.0".toList := by
  constructor <;> decide +kernel

/-- A version of two numbers in development keeps its mark. -/
example : getVersion (some "\nversion_tuple = (0, 1, 'dev1', 'g1a2b3c4')\n".toList) =
    .ok "0.1.dev1".toList := by
  decide +kernel

/-- If a line with the commit follows (the requirement `setuptools_scm>=6.2` has no upper bound, and
the layout of the file has changed since), the version is made of three characters of it. -/
theorem C132_commit :
    getVersion (some (Spec.releaseFile ++ "\n__commit_id__ = commit_id = 'g1a2b3c4'\n".toList)) =
      .ok "g.1.a".toList := by
  decide +kernel

/-- Without the file the version is empty; an empty file raises an `IndexError`, which the function
does not handle. -/
theorem C132_missing : getVersion none = .ok [] ∧ getVersion (some []) = .throw "IndexError" :=
  ⟨rfl, rfl⟩

end KML
