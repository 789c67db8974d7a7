import Verif.Model.CliMain
import Verif.Props.Retouch
import Verif.Props.CliErrors
import Verif.Props.TomlReport
import Verif.Props.HtmlReport

/-!
# C125: the `fog` command, from the file to what is written
-/

namespace Fog.Props

open Fog.Spec Fog.Cli Fog.CliMain

/-! ### Dates and times -/

theorem cut_headD (c : Char) (s : Str) : ∀ cur, (cut [c] 0 cur s).headD [] = cur ++ s.takeWhile (· != c) := by
  induction s with
  | nil => intro cur; simp [cut]
  | cons x s ih =>
      intro cur
      unfold cut
      by_cases h : x = c
      · subst h
        simp
      · have h' : c ≠ x := fun e => h e.symm
        simp only [List.isPrefixOf, beq_eq_false_iff_ne.mpr h', Bool.false_and, Bool.false_eq_true, if_false, ih]
        simp [h]

theorem before_eq (c : Char) (s : Str) : before c s = s.takeWhile (· != c) := cut_headD c s []

theorem before_append {c : Char} {s : Str} (hs : ∀ x ∈ s, x ≠ c) (t : Str) : before c (s ++ t) = s ++ before c t := by
  rw [before_eq, before_eq, List.takeWhile_append_of_pos]
  intro x hx
  simpa using hs x hx

theorem padded_isDigit (k n : Nat) : ∀ c ∈ Html.padded k n, c.isDigit = true := by
  intro c hc
  rcases List.mem_append.mp hc with hc | hc
  · rw [List.eq_of_mem_replicate hc]; rfl
  · exact Nat.isDigit_of_mem_toDigits (by decide) (by decide) hc

/-- The day, as it is written in the reports. -/
def dayText (d : DateTime) : Str := Html.padded 4 d.year ++ '-' :: Html.padded 2 d.month ++ '-' :: Html.padded 2 d.day

/-- The day and the time, as they are written in the reports. -/
def timeText (d : DateTime) : Str :=
  dayText d ++ 'T' :: Html.padded 2 d.hour ++ ':' :: Html.padded 2 d.minute ++ ':' :: Html.padded 2 d.second

theorem dayText_chars (d : DateTime) : ∀ c ∈ dayText d, c.isDigit = true ∨ c = '-' := by
  intro c hc
  simp only [dayText, List.mem_append, List.mem_cons] at hc
  rcases hc with (hc | hc | hc) | hc | hc
  · exact .inl (padded_isDigit _ _ c hc)
  · exact .inr hc
  · exact .inl (padded_isDigit _ _ c hc)
  · exact .inr hc
  · exact .inl (padded_isDigit _ _ c hc)

theorem timeText_chars (d : DateTime) : ∀ c ∈ timeText d, c.isDigit = true ∨ c = '-' ∨ c = 'T' ∨ c = ':' := by
  intro c hc
  simp only [timeText, List.mem_append, List.mem_cons] at hc
  rcases hc with ((hc | hc | hc) | hc | hc) | hc | hc
  · rcases dayText_chars d c hc with h | h
    · exact .inl h
    · exact .inr (.inl h)
  · exact .inr (.inr (.inl hc))
  · exact .inl (padded_isDigit _ _ c hc)
  · exact .inr (.inr (.inr hc))
  · exact .inl (padded_isDigit _ _ c hc)
  · exact .inr (.inr (.inr hc))
  · exact .inl (padded_isDigit _ _ c hc)

theorem isoformat_eq (d : DateTime) : isoformat d = timeText d ++ (if d.microsecond = 0 then [] else '.' :: Html.padded 6 d.microsecond) := by
  simp [isoformat, timeText, dayText]

theorem before_dot (d : DateTime) : before '.' (isoformat d) = timeText d := by
  rw [isoformat_eq, before_append]
  · split <;> simp [before_eq]
  · intro x hx
    rcases timeText_chars d x hx with h | h | h | h
    · rintro rfl; exact absurd h (by decide)
    all_goals rw [h]; decide

theorem before_T (d : DateTime) : before 'T' (isoformat d) = dayText d := by
  rw [show isoformat d = dayText d ++ 'T' :: (Html.padded 2 d.hour ++ ':' :: Html.padded 2 d.minute ++ ':' :: Html.padded 2 d.second ++
    (if d.microsecond = 0 then [] else '.' :: Html.padded 6 d.microsecond)) by simp [isoformat, dayText], before_append]
  · simp [before_eq]
  · intro x hx
    rcases dayText_chars d x hx with h | h
    · rintro rfl; exact absurd h (by decide)
    · rw [h]; decide

theorem bareChar_digit {c : Char} (h : c.isDigit = true) : Toml.bareChar c = true := by
  unfold Toml.bareChar
  simp [Char.isAlphanum, h]

theorem timeText_bare (d : DateTime) : BareText (timeText d) := by
  refine ⟨fun c hc => ?_, ':', ?_, ?_⟩
  · rcases timeText_chars d c hc with h | h | h | h
    · exact bareChar_digit h
    all_goals rw [h]; decide
  · simp [timeText]
  · decide

theorem sixDecimals_bare (took : Rat) : BareText (sixDecimals took) := by
  refine ⟨fun c hc => ?_, '.', ?_, by decide⟩
  · simp only [sixDecimals, List.mem_append, List.mem_cons] at hc
    rcases hc with hc | hc | hc
    · exact bareChar_digit (Nat.isDigit_of_mem_toDigits (by decide) (by decide) hc)
    · rw [hc]; decide
    · exact bareChar_digit (padded_isDigit _ _ c hc)
  · simp [sixDecimals]

/-- **C125**: the date of the TOML report is the one of the clock, written with digits, without its microseconds. -/
theorem time_text {d : DateTime} (h : d.year < 10000 ∧ d.month < 100 ∧ d.day < 100 ∧ d.hour < 100 ∧ d.minute < 100 ∧ d.second < 100) :
    ∃ y mo da ho mi se : Str, Digits 4 d.year y ∧ Digits 2 d.month mo ∧ Digits 2 d.day da ∧ Digits 2 d.hour ho ∧ Digits 2 d.minute mi ∧
      Digits 2 d.second se ∧ before 'T' (isoformat d) = y ++ '-' :: mo ++ '-' :: da ∧
      before '.' (isoformat d) = y ++ '-' :: mo ++ '-' :: da ++ 'T' :: ho ++ ':' :: mi ++ ':' :: se := by
  refine ⟨_, _, _, _, _, _, padded_digits (by decide) h.1, padded_digits (by decide) h.2.1, padded_digits (by decide) h.2.2.1,
    padded_digits (by decide) h.2.2.2.1, padded_digits (by decide) h.2.2.2.2.1, padded_digits (by decide) h.2.2.2.2.2, ?_, ?_⟩
  · rw [before_T]; rfl
  · rw [before_dot]; rfl

/-- **C125**: the time of the TOML report is the one measured, rounded to six decimals. -/
theorem took_text {took : Rat} (h : 0 ≤ took) : ∃ (n : Nat) (w d : Str), took * 1000000 - n ≤ 1 / 2 ∧ n - took * 1000000 ≤ 1 / 2 ∧
    Digits w.length (n / 1000000) w ∧ Digits 6 (n % 1000000) d ∧ sixDecimals took = w ++ '.' :: d := by
  obtain ⟨h1, h2, -⟩ := roundEven_spec (x := took * 1000000) (by positivity)
  exact ⟨_, _, _, h1, h2, decimal_digits _, padded_digits (by decide) (Nat.mod_lt _ (by decide)), rfl⟩

/-! ### What is run -/

section

variable {u : Fingerprint.Unicode} {upper : Str → Str} {ord : Str → List Str → List Str} {now : DateTime} {took : Rat}

/-- **C125**: without a command, the help of the program is printed; `help` prints the one of the command which is named, or that of the program
when there is no such command. -/
theorem fog_help (args : CliMain.Namespace) (file : List (List Str)) :
    (args.action = none → main u upper ord now took args file = .ok [.help none]) ∧
    (args.action = some "help".toList → main u upper ord now took args file =
      .ok [.help (if args.subcommand ∈ ["cluster".toList, "split".toList, "transform".toList, "help".toList] then some args.subcommand else none)]) := by
  constructor <;> intro h <;> unfold main <;> rw [h]
  · rfl
  · by_cases hs : args.subcommand ∈ ["cluster".toList, "split".toList, "transform".toList, "help".toList]
    · rw [if_pos hs, if_pos (show args.subcommand ∈ subparsers from hs)]; rfl
    · rw [if_neg hs, if_neg (show args.subcommand ∉ subparsers from hs)]; rfl

theorem main_cluster {args : CliMain.Namespace} (h : args.action = some "cluster".toList) (file : List (List Str)) :
    main u upper ord now took args file = (CliMain.clusterAction u ord now took args.cluster file).map fun t => [.text t] := by
  unfold main
  rw [h]
  cases CliMain.clusterAction u ord now took args.cluster file <;> rfl

/-- **C125**: `split` and `transform` do what their actions do, and write nothing else. -/
theorem fog_actions (args : CliMain.Namespace) (file : List (List Str)) :
    (args.action = some "split".toList → main u upper ord now took args file = (splitAction args.split file).map fun r => [.rows r]) ∧
    (args.action = some "transform".toList →
      main u upper ord now took args file = (transformAction (library u upper) args.transform file).map fun r => [.table r.1 r.2]) := by
  constructor <;> intro h <;> unfold main <;> rw [h]
  · cases splitAction args.split file <;> rfl
  · cases transformAction (library u upper) args.transform file <;> rfl

/-! ### Clustering -/

theorem clusterArgs_some {column : Str} {algorithm type : Option Str} {args : ClusterArgs} (h : clusterArgs u ord column algorithm type = some args) :
    args.column = column ∧ args.algorithm = "fingerprint_collision".toList ∧ args.type = type.getD "toml".toList ∧
      (args.type = "html".toList ∨ args.type = "toml".toList) := by
  unfold clusterArgs at h
  simp only at h
  split at h
  · next hc =>
      cases h
      refine ⟨rfl, ?_, rfl, ?_⟩
      · simpa [clusteringRoutines, Dict.keys] using hc.1
      · simpa using hc.2
  · cases h

theorem keyGroups (fp : Str → Str) (col : List Str) :
    Groups col (fun v w => fp v = fp w ∧ fp v ≠ []) (((firsts (((firsts col).map fp).filter fun k => decide (k ≠ []))).map fun k =>
      (firsts col).filter fun item => fp item = k).filter fun c => decide (2 ≤ c.length ∧ ∀ m ∈ (none : Option Nat), c.length ≤ m)) := by
  have hmem : ∀ k v, v ∈ (firsts col).filter (fun item => decide (fp item = k)) ↔ v ∈ col ∧ fp v = k := by
    intro k v; simp [KeyCollision.mem_firsts]
  have hnd : ∀ k, ((firsts col).filter fun item => decide (fp item = k)).Nodup := fun k => (KeyCollision.nodup_firsts col).filter _
  constructor
  · intro g hg
    obtain ⟨hg, h2⟩ := List.mem_filter.mp hg
    obtain ⟨k, -, rfl⟩ := List.mem_map.mp hg
    exact ⟨hnd k, (of_decide_eq_true h2).1, fun v hv => ((hmem k v).mp hv).1⟩
  · refine List.Pairwise.filter _ (List.pairwise_map.mpr ?_)
    refine (KeyCollision.nodup_firsts _).imp ?_
    intro k k' hk v hv hv'
    exact hk (((hmem k v).mp hv).2.symm.trans ((hmem k' v).mp hv').2)
  · intro v hv w hw hvw
    constructor
    · rintro ⟨g, hg, hvg, hwg⟩
      obtain ⟨hg, -⟩ := List.mem_filter.mp hg
      obtain ⟨k, hk, rfl⟩ := List.mem_map.mp hg
      have h1 := ((hmem k v).mp hvg).2
      have h2 := ((hmem k w).mp hwg).2
      have h3 := (List.mem_filter.mp (KeyCollision.mem_firsts.mp hk)).2
      exact ⟨h1.trans h2.symm, by rw [h1]; exact of_decide_eq_true h3⟩
    · rintro ⟨h, hne⟩
      have h1 := (hmem (fp v) v).mpr ⟨hv, rfl⟩
      have h2 := (hmem (fp v) w).mpr ⟨hw, h.symm⟩
      refine ⟨_, List.mem_filter.mpr ⟨List.mem_map.mpr ⟨fp v, ?_, rfl⟩, ?_⟩, h1, h2⟩
      · rw [KeyCollision.mem_firsts, List.mem_filter]
        exact ⟨List.mem_map.mpr ⟨v, KeyCollision.mem_firsts.mpr hv, rfl⟩, by simpa using hne⟩
      · simp only [decide_eq_true_eq]
        refine ⟨?_, by simp⟩
        match hl : ((firsts col).filter fun item => decide (fp item = fp v)) with
        | [] => rw [hl] at h1; simp at h1
        | [x] =>
            rw [hl] at h1 h2
            exact absurd ((List.mem_singleton.mp h1).trans (List.mem_singleton.mp h2).symm) hvw
        | x :: y :: l => simp

/-- What `cluster_action` does on a file whose rows are long enough. -/
theorem clusterAction_fine {args : ClusterArgs} {column : Str} {algorithm type : Option Str} (hargs : clusterArgs u ord column algorithm type = some args)
    {headers : List Str} {reader : List (List Str)} {i : Nat} (hr : customReader (headers :: reader) column = .ok (headers, i, reader))
    (hrows : ∀ line ∈ reader, i < line.length) :
    ∃ (values : Dict Str Nat) (clusters : List (List Str)) (text : Str),
      CliMain.clusterAction u ord now took args (headers :: reader) = .ok text ∧
      (type ≠ some "html".toList →
        printTomlReport (timeText now) "fingerprint_collision".toList (sixDecimals took) reader.length values clusters = .ok text) ∧
      (type = some "html".toList →
        Html.printHtmlReport (dayText now) "fingerprint_collision".toList took reader.length values clusters = text) ∧
      values.keys.Nodup ∧ (∀ v, v ∈ values.keys ↔ v ∈ reader.filterMap (·[i]?)) ∧
      (∀ v, count values v = (reader.filterMap (·[i]?)).count v) ∧
      Groups (reader.filterMap (·[i]?)) (fun v w => Fingerprint.key u {} v = Fingerprint.key u {} w ∧ Fingerprint.key u {} v ≠ []) clusters := by
  obtain ⟨hc1, hc2, hc3, hc4⟩ := clusterArgs_some hargs
  obtain ⟨values, hv, hk, hc⟩ := columnCounter_spec i hrows
  have hcoll := key_collision_single ord (fun k : Str => decide (k ≠ [])) values.keys (Fingerprint.key u {}) none 2 none true
  rw [hk] at hcoll
  have hg := keyGroups (Fingerprint.key u {}) (reader.filterMap (·[i]?))
  generalize ((firsts (((firsts (reader.filterMap (·[i]?))).map (Fingerprint.key u {})).filter fun k => decide (k ≠ []))).map fun k =>
      (firsts (reader.filterMap (·[i]?))).filter fun item => decide (Fingerprint.key u {} item = k)).filter
        (fun c => decide (2 ≤ c.length ∧ ∀ m ∈ (none : Option Nat), c.length ≤ m)) = clusters at hcoll hg
  have hne : ∀ c ∈ clusters, c ≠ [] := by
    rintro c hc rfl
    have := (hg.each [] hc).2.1
    simp at this
  have haction : ∀ renderer, renderers.get? args.type = some renderer →
      CliMain.clusterAction u ord now took args (headers :: reader) =
        renderer ⟨"fingerprint_collision".toList, took, now, reader.length⟩ values clusters := by
    intro renderer hren
    unfold CliMain.clusterAction
    rw [hc2, hc1, hr, hren, show (clusteringRoutines u ord).get? "fingerprint_collision".toList = some fun data =>
      KeyCollision.keyCollision ord (fun k : Str => decide (k ≠ [])) data (some (Fingerprint.key u {})) none 2 none true from rfl]
    simp only [bind, Except.bind, hv, hk, hcoll]
  obtain ⟨reports, hrep1, hrep2, hrep3⟩ := clusterReports_sorted values clusters 0 hne
  have hnodup : values.keys.Nodup := by rw [hk]; exact KeyCollision.nodup_firsts _
  have hkeys : ∀ v, v ∈ values.keys ↔ v ∈ reader.filterMap (·[i]?) := by
    intro v; rw [hk]; exact KeyCollision.mem_firsts
  by_cases ht : type = some "html".toList
  · have hty : args.type = "html".toList := by rw [hc3, ht]; rfl
    refine ⟨values, clusters, _, ?_, fun h => absurd ht h, fun _ => rfl, hnodup, hkeys, hc, hg⟩
    rw [haction _ (by rw [hty]; rfl), before_T]
  · have hty : args.type = "toml".toList := by
      rcases hc4 with h | h
      · rw [hc3] at h
        cases type with
        | none => exact absurd h (by decide)
        | some t => exact absurd (congrArg some h) ht
      · exact h
    have htext : ∃ text, printTomlReport (timeText now) "fingerprint_collision".toList (sixDecimals took) reader.length values clusters = .ok text := by
      unfold printTomlReport
      rw [hrep1]
      exact ⟨_, rfl⟩
    obtain ⟨text, htext⟩ := htext
    refine ⟨values, clusters, text, ?_, fun _ => htext, fun h => absurd h ht, hnodup, hkeys, hc, hg⟩
    rw [haction _ (by rw [hty]; rfl), before_dot, htext]

/-- Two texts which can be made equal by changes of case, accents, punctuation, white space, order of the words and repetitions of words, and
which have a letter or a digit. -/
def SameText (space : Char → Bool) (plain : Char → List Char) (v w : Str) : Prop :=
  Alike plain space v w ∧ ∃ c ∈ v, ∃ d ∈ plain c, space d = false

/-- **C125**: `fog cluster` writes one report, of the type which is asked for, on the values of the column with their numbers of rows: two
different values are in the same cluster exactly when they can be made equal by changes of case, accents, punctuation, white space, order of the
words and repetitions of words, and have a letter or a digit. -/
theorem fog_cluster {plain : Char → List Char} (hu : ByCharacter u plain) (args : CliMain.Namespace) (haction : args.action = some "cluster".toList)
    {column : Str} {algorithm type : Option Str} (hargs : clusterArgs u ord column algorithm type = some args.cluster)
    {headers : List Str} {reader : List (List Str)} (hcol : column ∈ headers) (hrows : ∀ line ∈ reader, headers.length ≤ line.length) :
    ∃ (i : Nat) (values : Dict Str Nat) (clusters : List (List Str)) (text : Str), headers[i]? = some column ∧
      main u upper ord now took args (headers :: reader) = .ok [.text text] ∧
      (type ≠ some "html".toList →
        printTomlReport (timeText now) "fingerprint_collision".toList (sixDecimals took) reader.length values clusters = .ok text) ∧
      (type = some "html".toList →
        Html.printHtmlReport (dayText now) "fingerprint_collision".toList took reader.length values clusters = text) ∧
      values.keys.Nodup ∧ (∀ v, v ∈ values.keys ↔ v ∈ reader.filterMap (·[i]?)) ∧
      (∀ v, count values v = (reader.filterMap (·[i]?)).count v) ∧
      Groups (reader.filterMap (·[i]?)) (SameText u.isSpace plain) clusters := by
  obtain ⟨i, hr, hi⟩ := customReader_total headers reader column hcol
  have hlt : i < headers.length := (List.getElem?_eq_some_iff.mp hi).1
  obtain ⟨values, clusters, text, h1, h2, h3, h4, h5, h6, hg⟩ := clusterAction_fine (now := now) (took := took) hargs hr
    (fun line hl => Nat.lt_of_lt_of_le hlt (hrows line hl))
  refine ⟨i, values, clusters, text, hi, by rw [main_cluster haction, h1]; rfl, h2, h3, h4, h5, h6, hg.each, hg.apart, fun v hv w hw hvw => ?_⟩
  rw [hg.together v hv w hw hvw, fingerprint_alike_iff hu, Ne, fingerprint_empty_iff hu]
  unfold SameText
  simp only [not_forall, Bool.not_eq_true]
  constructor
  · rintro ⟨h, c, hc, d, hd, hs⟩
    exact ⟨h, c, hc, d, hd, hs⟩
  · rintro ⟨h, c, hc, d, hd, hs⟩
    exact ⟨h, c, hc, d, hd, hs⟩

theorem groups_perm {α : Type} {values : List α} {linked : α → α → Prop} {groups sorted : List (List α)} (h : Groups values linked groups)
    (hs : List.Forall₂ (fun c s => s.Perm c) groups sorted) : Groups values linked sorted := by
  have hin : ∀ g ∈ groups, ∃ s ∈ sorted, s.Perm g := by
    clear h
    induction hs with
    | nil => simp
    | cons h _ ih =>
        intro g hg
        rcases List.mem_cons.mp hg with rfl | hg
        · exact ⟨_, by simp, h⟩
        · obtain ⟨s, hs, hp⟩ := ih g hg
          exact ⟨s, by simp [hs], hp⟩
  have hout : ∀ s ∈ sorted, ∃ g ∈ groups, s.Perm g := by
    clear h hin
    induction hs with
    | nil => simp
    | cons h _ ih =>
        intro g hg
        rcases List.mem_cons.mp hg with rfl | hg
        · exact ⟨_, by simp, h⟩
        · obtain ⟨s, hs, hp⟩ := ih g hg
          exact ⟨s, by simp [hs], hp⟩
  refine ⟨?_, ?_, ?_⟩
  · intro s hs
    obtain ⟨g, hg, hp⟩ := hout s hs
    obtain ⟨h1, h2, h3⟩ := h.each g hg
    exact ⟨hp.nodup_iff.mpr h1, by rw [hp.length_eq]; exact h2, fun v hv => h3 v (hp.mem_iff.mp hv)⟩
  · have hap := h.apart
    clear h hin hout
    induction hs with
    | nil => exact .nil
    | @cons g s gs ss hp hrest ih =>
        rw [List.pairwise_cons] at hap ⊢
        refine ⟨fun s' hs' v hv hv' => ?_, ih hap.2⟩
        have : ∃ g' ∈ gs, s'.Perm g' := by
          clear ih hap hv'
          induction hrest with
          | nil => simp at hs'
          | cons h _ ih =>
              rcases List.mem_cons.mp hs' with rfl | hg
              · exact ⟨_, by simp, h⟩
              · obtain ⟨s, hs, hp⟩ := ih hg
                exact ⟨s, by simp [hs], hp⟩
        obtain ⟨g', hg', hp'⟩ := this
        exact hap.1 g' hg' v (hp.mem_iff.mp hv) (hp'.mem_iff.mp hv')
  · intro v hv w hw hvw
    rw [← h.together v hv w hw hvw]
    constructor
    · rintro ⟨s, hs, h1, h2⟩
      obtain ⟨g, hg, hp⟩ := hout s hs
      exact ⟨g, hg, hp.mem_iff.mp h1, hp.mem_iff.mp h2⟩
    · rintro ⟨g, hg, h1, h2⟩
      obtain ⟨s, hs, hp⟩ := hin g hg
      exact ⟨s, hs, hp.mem_iff.mpr h1, hp.mem_iff.mpr h2⟩

/-- **C125**: a TOML reader finds in what `fog cluster` writes the numbers of rows, of different values and of clusters, and the clusters, each by
decreasing number of rows. The values may hold quotes and newlines, but no backslash and no other control character. -/
theorem fog_cluster_read {plain : Char → List Char} (hu : ByCharacter u plain) (args : CliMain.Namespace)
    (haction : args.action = some "cluster".toList) {column : Str} {algorithm type : Option Str}
    (hargs : clusterArgs u ord column algorithm type = some args.cluster) (htype : type ≠ some "html".toList)
    {headers : List Str} {reader : List (List Str)} (hcol : column ∈ headers) (hrows : ∀ line ∈ reader, headers.length ≤ line.length)
    (hread : ∀ line ∈ reader, ∀ v ∈ line, Readable v) :
    ∃ (i : Nat) (different : List Str) (clusters : List (List Str)) (text : Str), headers[i]? = some column ∧
      main u upper ord now took args (headers :: reader) = .ok [.text text] ∧
      different.Nodup ∧ (∀ v, v ∈ different ↔ v ∈ reader.filterMap (·[i]?)) ∧
      Groups (reader.filterMap (·[i]?)) (SameText u.isSpace plain) clusters ∧
      (∀ c ∈ clusters, c.Pairwise fun v w => (reader.filterMap (·[i]?)).count w ≤ (reader.filterMap (·[i]?)).count v) ∧
      Toml.read text = some ([
        .table "info".toList,
        .pair "date".toList (.bare (timeText now)),
        .pair "algorithm".toList (.str "fingerprint_collision".toList),
        .table "stats".toList,
        .pair "lines".toList (.int reader.length),
        .pair "nb_distinct_values".toList (.int different.length),
        .pair "nb_clusters".toList (.int clusters.length),
        .pair "took".toList (.bare (sixDecimals took))] ++ clusters.zipIdx.flatMap (clusterStatements (reader.filterMap (·[i]?)).count)) := by
  obtain ⟨i, values, clusters, text, hi, h1, h2, -, h4, h5, h6, hg⟩ := fog_cluster (upper := upper) (now := now) (took := took) hu args haction hargs
    hcol hrows
  have hcount : count values = fun v => (reader.filterMap (·[i]?)).count v := funext h6
  obtain ⟨text', sorted, h7, h8, h9⟩ := toml_report_read (timeText_bare now) (algorithm := "fingerprint_collision".toList) (by decide)
    (sixDecimals_bare took) reader.length values (clusters := clusters)
    (by rintro c hc rfl; have := (hg.each [] hc).2.1; simp at this)
    (by
      intro c hc v hv
      obtain ⟨line, hl, hv⟩ := List.mem_filterMap.mp ((hg.each c hc).2.2 v hv)
      exact hread line hl v (List.mem_of_getElem? hv))
  rw [h2 htype] at h7
  cases h7
  refine ⟨i, values.keys, sorted, text, hi, h1, h4, h5, groups_perm hg (h8.imp fun _ _ h => h.1), ?_, ?_⟩
  · clear h9 hg h2
    induction h8 with
    | nil => simp
    | cons h _ ih =>
        intro c hc
        rcases List.mem_cons.mp hc with rfl | hc
        · simpa only [h6] using h.2
        · exact ih c hc
  · rw [h9, h8.length_eq, hcount]
    simp [Dict.keys]

theorem counter_fails (i : Nat) {reader : List (List Str)} (h : ∃ line ∈ reader, line.length ≤ i) : counter i reader = .error .indexError := by
  unfold counter
  generalize ([] : Dict Str Nat) = values
  induction reader generalizing values with
  | nil => simp at h
  | cons line reader ih =>
      rw [List.foldlM_cons]
      by_cases hl : line.length ≤ i
      · rw [List.getElem?_eq_none hl]; rfl
      · rw [List.getElem?_eq_getElem (Nat.lt_of_not_le hl)]
        refine ih ?_ _
        obtain ⟨x, hx, hxi⟩ := h
        rcases List.mem_cons.mp hx with rfl | hx
        · exact absurd hxi hl
        · exact ⟨x, hx, hxi⟩

/-- **C125**: `fog cluster` raises an `AttributeError` on an empty file, a `ValueError` when no header is the column and an `IndexError` when a
row has no such cell, and in no other case. -/
theorem fog_cluster_raises_iff (args : CliMain.Namespace) (haction : args.action = some "cluster".toList) {column : Str}
    {algorithm type : Option Str} (hargs : clusterArgs u ord column algorithm type = some args.cluster) (file : List (List Str)) (e : PyErr) :
    main u upper ord now took args file = .error e ↔
      (file = [] ∧ e = .attributeError) ∨ ∃ headers reader, file = headers :: reader ∧
        ((column ∉ headers ∧ e = .valueError) ∨
          ∃ i, FirstAt headers column i ∧ (∃ line ∈ reader, line.length ≤ i) ∧ e = .indexError) := by
  obtain ⟨hc1, hc2, hc3, hc4⟩ := clusterArgs_some hargs
  have hget : (clusteringRoutines u ord).get? args.cluster.algorithm = some fun data =>
      KeyCollision.keyCollision ord (fun k : Str => decide (k ≠ [])) data (some (Fingerprint.key u {})) none 2 none true := by rw [hc2]; rfl
  rw [main_cluster haction]
  rcases customReader_cases file column with ⟨rfl, h⟩ | ⟨headers, reader, rfl, hc, h⟩ | ⟨headers, reader, i, rfl, hi, h⟩
  · rw [show CliMain.clusterAction u ord now took args.cluster [] = .error .attributeError by
      unfold CliMain.clusterAction; rw [hget, hc1, h]; rfl]
    simp [Except.map, eq_comm]
  · rw [show CliMain.clusterAction u ord now took args.cluster (headers :: reader) = .error .valueError by
      unfold CliMain.clusterAction; rw [hget, hc1, h]; rfl]
    constructor
    · intro h'
      cases h'
      exact .inr ⟨headers, reader, rfl, .inl ⟨hc, rfl⟩⟩
    · rintro (⟨h', -⟩ | ⟨hs, r, h', h''⟩)
      · cases h'
      · cases h'
        rcases h'' with ⟨-, rfl⟩ | ⟨i, hi, -, -⟩
        · rfl
        · exact absurd (List.mem_of_getElem? hi.1) hc
  · by_cases hb : ∃ line ∈ reader, line.length ≤ i
    · rw [show CliMain.clusterAction u ord now took args.cluster (headers :: reader) = .error .indexError by
        unfold CliMain.clusterAction; rw [hget, hc1, h]; simp only [bind, Except.bind, counter_fails i hb]]
      constructor
      · intro h'
        cases h'
        exact .inr ⟨headers, reader, rfl, .inr ⟨i, hi, hb, rfl⟩⟩
      · rintro (⟨h', -⟩ | ⟨hs, r, h', h''⟩)
        · cases h'
        · cases h'
          rcases h'' with ⟨hc, -⟩ | ⟨-, -, -, rfl⟩
          · exact absurd (List.mem_of_getElem? hi.1) hc
          · rfl
    · obtain ⟨_, _, text, h1, -⟩ := clusterAction_fine (now := now) (took := took) hargs h (by
        intro line hl
        by_contra hn
        exact hb ⟨line, hl, Nat.le_of_not_lt hn⟩)
      rw [h1]
      constructor
      · intro h'; cases h'
      · rintro (⟨h', -⟩ | ⟨hs, r, h', h''⟩)
        · cases h'
        · cases h'
          rcases h'' with ⟨hc, -⟩ | ⟨j, hj, hl, -⟩
          · exact absurd (List.mem_of_getElem? hi.1) hc
          · rw [firstAt_unique hj hi] at hl
            exact absurd hl hb

/-! ### Transforming, then clustering -/

/-- A table which is read again, when it holds strings only. -/
def asRows (headers : List Str) (rows : List (List Cell)) : List (List Str) :=
  headers :: rows.map fun row => row.map fun
    | .str s => s
    | .int n => decimal n

/-- A row whose cell in the column `i` is replaced by its fingerprint. -/
def fingerprinted (u : Fingerprint.Unicode) (i : Nat) (line : List Str) : List Str := line.modify i (Fingerprint.key u {})

theorem transform_fingerprint {args : TransformArgs} (hops : args.operations = "fingerprint".toList) (htarget : args.target_column = none)
    (heval : args.eval = none) {headers : List Str} {i : Nat} {reader : List (List Str)}
    (hr : customReader (headers :: reader) args.column = .ok (headers, i, reader)) (hrows : ∀ line ∈ reader, i < line.length) :
    transformAction (library u upper) args (headers :: reader) = .ok (headers, reader.map fun line => (fingerprinted u i line).map Cell.str) := by
  have hchain : operationChain args = .ok [.fingerprint] := by
    unfold operationChain
    rw [heval, hops]
    rfl
  have hline : ∀ line, i < line.length → transformLine (library u upper) args [.fingerprint] i line =
      .ok ((fingerprinted u i line).map Cell.str) := by
    intro line hl
    unfold transformLine
    rw [List.getElem?_eq_getElem hl, heval, htarget]
    simp only [newValue, List.foldlM_cons, List.foldlM_nil, apply, bind, Except.bind, pure, Except.pure]
    congr 1
    unfold fingerprinted
    apply List.ext_getElem?
    intro j
    by_cases hj : i = j
    · subst hj
      simp [List.getElem?_modify, hl, library]
    · simp [List.getElem?_set, List.getElem?_modify, hj]
  have hmap : ∀ l : List (List Str), (∀ line ∈ l, i < line.length) → l.mapM (transformLine (library u upper) args [.fingerprint] i) =
      .ok (l.map fun line => (fingerprinted u i line).map Cell.str) := by
    intro l
    induction l with
    | nil => intro _; rfl
    | cons line l ih =>
        intro h
        rw [List.mapM_cons, hline line (h line (by simp)), ih (fun x hx => h x (by simp [hx]))]
        rfl
  unfold transformAction
  rw [hchain, hr]
  simp only [bind, Except.bind, hmap reader hrows, pure, Except.pure]
  unfold transformHeaders
  rw [htarget]

theorem asRows_fingerprinted (i : Nat) (headers : List Str) (reader : List (List Str)) :
    asRows headers (reader.map fun line => (fingerprinted u i line).map Cell.str) = headers :: reader.map (fingerprinted u i) := by
  unfold asRows
  rw [List.map_map]
  congr 1
  apply List.map_congr_left
  intro line _
  simp [Function.comp_def]

theorem groups_none {α : Type} {values : List α} {linked : α → α → Prop} {groups : List (List α)} (hg : Groups values linked groups)
    (h : ∀ v ∈ values, ∀ w ∈ values, v ≠ w → ¬ linked v w) : groups = [] := by
  cases groups with
  | nil => rfl
  | cons g gs =>
      exfalso
      obtain ⟨hnd, h2, hin⟩ := hg.each g (by simp)
      match g, hnd, h2, hin with
      | v :: w :: l, hnd, _, hin =>
          have hvw : v ≠ w := by rintro rfl; simp at hnd
          exact h v (hin v (by simp)) w (hin w (by simp)) hvw
            ((hg.together v (hin v (by simp)) w (hin w (by simp)) hvw).mp
              ⟨v :: w :: l, by simp, by simp, by simp⟩)

/-- **C125**: after `fog transform` has replaced the values of a column by their fingerprints, doing it again changes nothing, and `fog cluster`
finds no cluster. -/
theorem fog_fingerprint_settles (hu : Lawful u) (args args' : CliMain.Namespace) (haction : args.action = some "transform".toList)
    (hops : args.transform.operations = "fingerprint".toList) (htarget : args.transform.target_column = none)
    (heval : args.transform.eval = none) (haction' : args'.action = some "cluster".toList) {algorithm type : Option Str}
    (hargs : clusterArgs u ord args.transform.column algorithm type = some args'.cluster)
    {headers : List Str} {reader : List (List Str)} (hcol : args.transform.column ∈ headers)
    (hrows : ∀ line ∈ reader, headers.length ≤ line.length) :
    ∃ (out : List (List Cell)) (values : Dict Str Nat) (text : Str),
      main u upper ord now took args (headers :: reader) = .ok [.table headers out] ∧
      main u upper ord now took args (asRows headers out) = .ok [.table headers out] ∧
      main u upper ord now took args' (asRows headers out) = .ok [.text text] ∧
      (type ≠ some "html".toList →
        printTomlReport (timeText now) "fingerprint_collision".toList (sixDecimals took) reader.length values [] = .ok text) ∧
      (type = some "html".toList →
        Html.printHtmlReport (dayText now) "fingerprint_collision".toList took reader.length values [] = text) := by
  have hidem : ∀ s, Fingerprint.key u {} (Fingerprint.key u {} s) = Fingerprint.key u {} s := fun s =>
    fingerprint_idempotent_partial u hu {} (by intro _ h; cases h) rfl rfl (Nat.le_refl 1) s
  obtain ⟨i, hr, hi⟩ := customReader_total headers reader _ hcol
  have hlt : i < headers.length := (List.getElem?_eq_some_iff.mp hi).1
  have hlines : ∀ line ∈ reader, i < line.length := fun line hl => Nat.lt_of_lt_of_le hlt (hrows line hl)
  have hlines' : ∀ line ∈ reader.map (fingerprinted u i), i < line.length := by
    intro line hl
    obtain ⟨x, hx, rfl⟩ := List.mem_map.mp hl
    simpa [fingerprinted] using hlines x hx
  have hr' : customReader (headers :: reader.map (fingerprinted u i)) args.transform.column = .ok (headers, i, reader.map (fingerprinted u i)) := by
    unfold customReader at hr ⊢
    simp only at hr ⊢
    cases hx : headers.idxOf? args.transform.column with
    | none => rw [hx] at hr; cases hr
    | some j => rw [hx] at hr; cases hr; rfl
  obtain ⟨values, clusters, text, h1, h2, h3, -, -, -, hg⟩ := clusterAction_fine (now := now) (took := took) hargs hr' hlines'
  have hkey : ∀ x ∈ (reader.map (fingerprinted u i)).filterMap (·[i]?), Fingerprint.key u {} x = x := by
    intro x hx
    obtain ⟨line, hl, hx⟩ := List.mem_filterMap.mp hx
    obtain ⟨y, hy, rfl⟩ := List.mem_map.mp hl
    have hy' := hlines y hy
    simp only [fingerprinted, List.getElem?_modify, if_true, List.getElem?_eq_getElem hy', Option.map_eq_map, Option.map_some,
      Option.some.injEq] at hx
    rw [← hx]
    exact hidem _
  have hnone : clusters = [] := groups_none hg fun v hv w hw hvw h => by
    rw [hkey v hv, hkey w hw] at h
    exact hvw h.1
  subst hnone
  simp only [List.length_map] at h2 h3
  refine ⟨reader.map fun line => (fingerprinted u i line).map Cell.str, values, text, ?_, ?_, ?_, h2, h3⟩
  · rw [(fog_actions args _).2 haction, transform_fingerprint hops htarget heval hr hlines]
    rfl
  · rw [asRows_fingerprinted, (fog_actions args _).2 haction, transform_fingerprint hops htarget heval hr' hlines', List.map_map]
    simp only [Except.map]
    congr 3
    apply List.map_congr_left
    intro line _
    simp only [Function.comp_def, fingerprinted]
    rw [List.modify_modify_eq]
    congr 2
    funext s
    exact hidem s
  · rw [asRows_fingerprinted, main_cluster haction', h1]
    rfl

end

/-- What is typed: `fog cluster name`, or `fog cluster name -t html`. -/
def typed (type : Option Str) : CliMain.Namespace where
  action := some "cluster".toList
  subcommand := []
  cluster := ⟨"name".toList, "fingerprint_collision".toList, type.getD "toml".toList⟩
  split := splitArgs [] none none none
  transform := ⟨"name".toList, "fingerprint".toList, none, false, none⟩

example (type : Option Str) (h : type = none ∨ type = some "toml".toList ∨ type = some "html".toList) :
    clusterArgs ascii (fun _ l => l) "name".toList none type = some (typed type).cluster := by
  rcases h with rfl | rfl | rfl <;> rfl

example : clusterArgs ascii (fun _ l => l) "name".toList (some "levenshtein".toList) none = none := by decide

/-- Three names, two of which have the same words. -/
def names : List (List Str) := ["Doe,  JOHN john", "John Doe", "John Do", "?"].map fun s => [s.toList]

theorem names_alike : Alike asciiPlain ascii.isSpace "Doe,  JOHN john".toList "John Doe".toList := by
  refine (fingerprint_alike_iff ascii_byCharacter _ _).mp ?_
  refine (fingerprint_same_iff ascii rfl _ _ _).mpr ?_
  have h1 : cleanWords ascii {} "Doe,  JOHN john".toList = ["doe".toList, "john".toList, "john".toList] := by decide +kernel
  have h2 : cleanWords ascii {} "John Doe".toList = ["john".toList, "doe".toList] := by decide +kernel
  intro w
  rw [h1, h2]
  simp [or_comm]

/-- The report holds a cluster with both. -/
example (now : DateTime) (took : Rat) : ∃ (clusters : List (List Str)) (values : Dict Str Nat) (text : Str),
    main ascii id (fun _ l => l) now took (typed none) (["name".toList] :: names) = .ok [.text text] ∧
    printTomlReport (timeText now) "fingerprint_collision".toList (sixDecimals took) 4 values clusters = .ok text ∧
    ∃ c ∈ clusters, "Doe,  JOHN john".toList ∈ c ∧ "John Doe".toList ∈ c := by
  obtain ⟨i, values, clusters, text, hi, h1, h2, -, -, -, -, hg⟩ := fog_cluster (upper := id) (now := now) (took := took) (ord := fun _ l => l)
    ascii_byCharacter (typed none) rfl (column := "name".toList) (algorithm := none) (type := none) rfl (headers := ["name".toList]) (reader := names)
    (by simp) (by decide)
  obtain rfl : i = 0 := by
    have := (List.getElem?_eq_some_iff.mp hi).1
    simpa using this
  refine ⟨clusters, values, text, h1, h2 (by simp), (hg.together _ (by decide) _ (by decide) (by decide)).mpr ⟨names_alike, ?_⟩⟩
  decide +kernel

/-- A file on which the column is replaced by the fingerprints. -/
example : Lawful ascii ∧ "name".toList ∈ ["name".toList] ∧ (∀ line ∈ names, 1 ≤ line.length) :=
  ⟨ascii_lawful, by simp, by decide⟩

example (now : DateTime) (took : Rat) : main ascii id (fun _ l => l) now took (typed none) [["other".toList]] = .error .valueError :=
  (fog_cluster_raises_iff (typed none) rfl (column := "name".toList) (algorithm := none) (type := none) rfl _ _).mpr
    (.inr ⟨_, _, rfl, .inl ⟨by decide, rfl⟩⟩)

example : timeText ⟨2026, 11, 16, 7, 5, 9, 120⟩ = "2026-11-16T07:05:09".toList := by decide +kernel

end Fog.Props
