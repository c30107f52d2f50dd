import Verif.Props.Version
import Mathlib.Data.List.Dedup

/-!
# C76: the version of a `git archive`, C77: the other styles
-/

namespace KK.Version

variable [Unicode]

set_option linter.unusedSectionVars false

/-! ## Sorting -/

theorem mem_sortedSet {l : List Str} {x : Str} : x ∈ sortedSet l ↔ x ∈ l := by
  simp [sortedSet, List.mem_dedup, List.mem_mergeSort]

theorem sorted_sortedSet (l : List Str) : (sortedSet l).Pairwise fun a b => a ≤ b := by
  have h := List.pairwise_mergeSort (le := fun a b : Str => decide (a ≤ b))
    (fun a b c h1 h2 => by simp only [decide_eq_true_eq] at *; exact List.le_trans h1 h2)
    (fun a b => by simp only [Bool.or_eq_true, decide_eq_true_eq]; exact List.le_total a b) l
  exact (h.imp (by simp)).sublist (List.dedup_sublist _)

theorem usable_iff {name : Str} :
    (startswith name tagPrefix && startsWithDigit (name.drop tagPrefix.length)) = true ↔ ∃ ver, releaseName name ver := by
  cases name with
  | nil => simp [startswith, tagPrefix, releaseName]
  | cons c rest =>
    simp only [startswith, tagPrefix, releaseName, Bool.and_eq_true, List.isPrefixOf_iff_prefix, List.cons.injEq,
      List.length_singleton, List.drop_succ_cons, List.drop_zero, List.cons_prefix_cons, List.nil_prefix, and_true]
    constructor
    · rintro ⟨rfl, h⟩
      cases rest with
      | nil => simp [startsWithDigit] at h
      | cons d rest => exact ⟨d :: rest, ⟨rfl, rfl⟩, d, rest, rfl, h⟩
    · rintro ⟨ver, ⟨rfl, rfl⟩, d, r, rfl, h⟩
      exact ⟨rfl, h⟩

theorem pickTag_least {ver : Str} : ∀ {l : List Str}, l.Pairwise (fun a b => a ≤ b) → (∃ name ∈ l, releaseName name ver) →
    (∀ name' ∈ l, ∀ ver', releaseName name' ver' → ver ≤ ver') → pickTag tagPrefix l = some ver
  | [], _, h, _ => by simp at h
  | x :: l, hs, ⟨name, hn, hr⟩, hmin => by
    rw [pickTag]
    split_ifs with hx
    · obtain ⟨ver', hr'⟩ := usable_iff.1 hx
      have h1 := hmin x (by simp) ver' hr'
      have h2 : ver' ≤ ver := by
        rcases List.mem_cons.1 hn with rfl | hn
        · have : ver' = ver := by
            have := hr'.1.symm.trans hr.1
            simpa using this
          rw [this]; exact List.le_refl _
        · have := (List.pairwise_cons.1 hs).1 name hn
          rw [hr.1, hr'.1, List.cons_le_cons_iff] at this
          simpa using this
      rw [List.le_antisymm h1 h2, hr'.1]
      rfl
    · refine pickTag_least (List.pairwise_cons.1 hs).2 ⟨name, ?_, hr⟩ fun n' hn' => hmin n' (by simp [hn'])
      rcases List.mem_cons.1 hn with rfl | hn
      · exact absurd (usable_iff.2 ⟨ver, hr⟩) hx
      · exact hn

theorem pickTag_none : ∀ {l : List Str}, (∀ name ∈ l, ∀ ver, ¬ releaseName name ver) → pickTag tagPrefix l = none
  | [], _ => rfl
  | x :: l, h => by
    rw [pickTag, if_neg fun hx => by obtain ⟨ver, hr⟩ := usable_iff.1 hx; exact h x (by simp) ver hr]
    exact pickTag_none fun n hn => h n (by simp [hn])

/-! ## The ref names -/

theorem splitOn_word {c : Char} : ∀ {w : Str}, c ∉ w → splitOn c w = [w]
  | [], _ => rfl
  | d :: w, h => by
    simp only [List.mem_cons, not_or] at h
    rw [splitOn, if_neg (Ne.symm h.1), splitOn_word h.2]

theorem splitOn_append {c : Char} : ∀ {w s : Str}, c ∉ w → splitOn c (w ++ c :: s) = w :: splitOn c s
  | [], s, _ => by simp [splitOn]
  | d :: w, s, h => by
    simp only [List.mem_cons, not_or] at h
    rw [List.cons_append, splitOn, if_neg (Ne.symm h.1), splitOn_append h.2]

theorem intercalate_cons (r r' : Str) (rest : List Str) :
    (py! ", ").intercalate (r :: r' :: rest) = r ++ py! ", " ++ (py! ", ").intercalate (r' :: rest) := by
  simp [List.intercalate]

theorem splitOn_refs : ∀ {refs : List Str}, refs ≠ [] → (∀ r ∈ refs, ',' ∉ r) → ∀ s : Str, ',' ∉ s →
    splitOn ',' (s ++ (py! ", ").intercalate refs) = (s ++ refs.head!) :: refs.tail.map (' ' :: ·)
  | [], h, _, _, _ => absurd rfl h
  | [r], _, h, s, hs => by
    have : ',' ∉ s ++ r := by simp [hs, h r (by simp)]
    simpa [List.intercalate] using splitOn_word this
  | r :: r' :: rest, _, h, s, hs => by
    have hr : ',' ∉ s ++ r := by simp [hs, h r (by simp)]
    have e : s ++ (py! ", ").intercalate (r :: r' :: rest) = (s ++ r) ++ ',' :: (py! " " ++ (py! ", ").intercalate (r' :: rest)) := by
      rw [intercalate_cons]; simp
    rw [e, splitOn_append hr, splitOn_refs (by simp) (fun x hx => h x (by simp [hx])) _ (by decide)]
    simp

theorem ref_tight {r : Str} (h : IsRef r) : Tight isSpace r := ⟨fun c hc => h.2.1 c (.inl hc), fun c hc => h.2.1 c (.inr hc)⟩

theorem strip_space_ref {r : Str} (h : IsRef r) : strip (' ' :: r) = r := by
  have := stripBy_surrounded (p := isSpace) (a := [' ']) (b := []) (by decide) (by simp) (ref_tight h) h.1
  unfold strip
  simpa using this

theorem mem_intercalate {x : Char} : ∀ {refs : List Str}, (∀ r ∈ refs, x ∉ r) → x ∉ py! ", " → x ∉ (py! ", ").intercalate refs
  | [], _, _ => by simp [List.intercalate]
  | [r], h, _ => by simpa [List.intercalate] using h r
  | r :: r' :: rest, h, hx => by
    rw [intercalate_cons]
    have ih := mem_intercalate (refs := r' :: rest) (fun y hy => h y (by simp [hy])) hx
    simp only [List.mem_append, not_or]
    exact ⟨⟨h r (by simp), hx⟩, ih⟩

theorem strip_decoration (refs : List Str) :
    strip (decoration refs) = py! "(" ++ (py! ", ").intercalate refs ++ py! ")" := by
  have := stripBy_surrounded (p := isSpace) (a := [' ']) (b := []) (s := py! "(" ++ (py! ", ").intercalate refs ++ py! ")")
    (by decide) (by simp) (tight_of_ends ⟨by simp, by decide⟩ ⟨by simp, by decide⟩) (by simp)
  unfold strip
  simpa [decoration] using this

theorem refsOf_decoration {refs : List Str} (hne : refs ≠ []) (h : ∀ r ∈ refs, IsRef r) :
    refsOf (strip (decoration refs)) = refs := by
  set j := (py! ", ").intercalate refs with hj
  have hjne : j ≠ [] := by
    match refs, hne with
    | [r], _ => simpa [hj, List.intercalate] using (h r (by simp)).1
    | r :: r' :: rest, _ => rw [hj, intercalate_cons]; simp
  have h1 : strip (decoration refs) = py! "(" ++ j ++ py! ")" := strip_decoration refs
  have hp : ∀ c ∈ j, c ≠ '(' ∧ c ≠ ')' := by
    intro c hc
    constructor
    · rintro rfl
      exact mem_intercalate (fun r hr hm => ((h r hr).2.2 _ hm).2.1 rfl) (by decide) (hj ▸ hc)
    · rintro rfl
      exact mem_intercalate (fun r hr hm => ((h r hr).2.2 _ hm).2.2 rfl) (by decide) (hj ▸ hc)
  have h2 : stripBy (fun c => decide (c = '(') || decide (c = ')')) (py! "(" ++ j ++ py! ")") = j := by
    refine stripBy_surrounded (by decide) (by decide) ⟨fun c hc => ?_, fun c hc => ?_⟩ hjne
    · have := hp c (List.mem_of_mem_head? (by rw [hc]; rfl)); simp [this]
    · have := hp c (List.mem_of_getLast? hc); simp [this]
  unfold refsOf
  rw [h1, h2]
  have h3 := splitOn_refs hne (fun r hr hm => ((h r hr).2.2 _ hm).1 rfl) [] (by simp)
  rw [List.nil_append] at h3
  rw [hj, h3]
  match refs, hne with
  | r :: rest, _ =>
    simp only [List.nil_append, List.head!_cons, List.tail_cons, List.map_cons, List.map_map, List.cons.injEq]
    refine ⟨strip_tight (ref_tight (h r (by simp))), ?_⟩
    conv_rhs => rw [← List.map_id rest]
    refine List.map_congr_left fun x hx => ?_
    exact strip_space_ref (h x (by simp [hx]))

theorem mem_tags {refs : List Str} {name : Str} :
    name ∈ ((refs.filter fun r => startswith r (py! "tag: ")).map fun r => r.drop 5) ↔ (py! "tag: " ++ name) ∈ refs := by
  simp only [List.mem_map, List.mem_filter, startswith, List.isPrefixOf_iff_prefix]
  constructor
  · rintro ⟨r, ⟨hr, t, rfl⟩, rfl⟩
    simpa using hr
  · intro h
    exact ⟨_, ⟨h, _, rfl⟩, by simp⟩

theorem mem_tagsOf {refs : List Str} {name ver : Str} (hr : releaseName name ver) :
    name ∈ tagsOf refs ↔ candidate refs name := by
  unfold tagsOf candidate
  simp only
  split_ifs with he
  · have hno : ∀ t, (py! "tag: " ++ t) ∉ refs := fun t ht => by
      have := mem_tags.2 ht
      rw [he] at this
      simp at this
    have hd : name.any Unicode.isDecimal = true := by
      obtain ⟨rfl, c, rest, rfl, hc⟩ := hr
      simp [hc]
    simp only [List.mem_filter, hd, and_true]
    exact ⟨fun h => .inr ⟨hno, h⟩, fun h => h.elim (fun h => absurd h (hno _)) (·.2)⟩
  · rw [mem_tags]
    refine ⟨.inl, fun h => h.elim id fun h => ?_⟩
    exfalso
    apply he
    rw [List.eq_nil_iff_forall_not_mem]
    intro t ht
    exact h.1 t (mem_tags.1 ht)

theorem keywords_archive {refs : List Str} {full day time zone : Str} (hne : refs ≠ []) (hrefs : ∀ r ∈ refs, IsRef r)
    (hday : IsWord day) (htime : IsWord time) (hzone : IsWord zone) (hfull : IsHash full) :
    gitVersionsFromKeywords ⟨some (decoration refs), some full, some (gitDate day time zone)⟩ tagPrefix =
      match pickTag tagPrefix (sortedSet (tagsOf refs)) with
      | some r => .ok ⟨r, some full, some false, none, some (day ++ 'T' :: time ++ zone)⟩
      | none => .ok ⟨py! "0+unknown", some full, some false, some (py! "no suitable tags"), none⟩ := by
  unfold gitVersionsFromKeywords
  simp only
  have hd : Option.mapM isoDate (some (gitDate day time zone)) = .ok (some (day ++ 'T' :: time ++ zone)) := by
    simp only [Option.mapM_some, isoDate_gitDate hday htime hzone]; rfl
  rw [hd, refsOf_decoration hne hrefs]
  have hs : startswith (strip (decoration refs)) (py! "$Format") = false := by
    rw [strip_decoration]
    simp [startswith, List.isPrefixOf]
  simp only [hs, Bool.false_eq_true, if_false, strip_tight (tight_word (hash_word hfull))]
  cases pickTag tagPrefix (sortedSet (tagsOf refs)) <;> rfl

/-- **C76.**  In an archive made by `git archive` the version does not depend on git or on the directory: it is the least
(in the order of strings) `VERSION` such that `vVERSION` is among the tags of the commit (or among all its ref names, if
no tag is marked) and starts with a digit, reported with commit and date and as not dirty. -/
theorem C76_archive {env : Env} {refs : List Str} {full day time zone name ver : Str} (hrefs : ∀ r ∈ refs, IsRef r)
    (hday : IsWord day) (htime : IsWord time) (hzone : IsWord zone) (hfull : IsHash full)
    (hkw : env.keywords = ⟨some (decoration refs), some full, some (gitDate day time zone)⟩)
    (hname : candidate refs name) (hver : releaseName name ver)
    (hmin : ∀ name' ver', candidate refs name' → releaseName name' ver' → ver ≤ ver') :
    getVersions env = .ok ⟨ver, some full, some false, none, some (day ++ 'T' :: time ++ zone)⟩ := by
  have hne : refs ≠ [] := by
    rintro rfl
    rcases hname with h | ⟨-, h⟩ <;> simp at h
  have hp : pickTag tagPrefix (sortedSet (tagsOf refs)) = some ver := by
    refine pickTag_least (sorted_sortedSet _) ⟨name, mem_sortedSet.2 ((mem_tagsOf hver).2 hname), hver⟩ ?_
    intro name' hn' ver' hv'
    exact hmin name' ver' ((mem_tagsOf hv').1 (mem_sortedSet.1 hn')) hv'
  unfold getVersions
  rw [hkw, keywords_archive hne hrefs hday htime hzone hfull, hp]

/-- Two release tags: the least is taken. -/
example : @getVersions Ex.ascii (Ex.machine ⟨some (decoration [py! "HEAD -> main", py! "tag: v2.0", py! "tag: v10.0", py! "v1"]),
      some (py! "0a1b2c3d4e5f0a1b"), some (gitDate (py! "2024-01-02") (py! "03:04:05") (py! "+0100"))⟩ (py! "/x") []) =
    .ok ⟨py! "10.0", some (py! "0a1b2c3d4e5f0a1b"), some false, none, some (py! "2024-01-02T03:04:05+0100")⟩ := by
  let _ := Ex.ascii
  refine C76_archive (name := py! "v10.0") ?_ Ex.word_day Ex.word_time Ex.word_zone Ex.hash16 rfl (.inl (by decide))
    ⟨rfl, '1', py! "0.0", rfl, by decide⟩ ?_
  · intro r hr
    simp only [List.mem_cons, List.not_mem_nil, or_false] at hr
    rcases hr with rfl | rfl | rfl | rfl <;> exact ⟨by simp, by rintro c (h | h) <;> (simp at h; subst h; decide), by decide⟩
  · intro name' ver' hc hr
    rcases hc with hc | hc
    · simp only [hr.1, List.mem_cons, List.cons_append, List.nil_append, List.cons.injEq, reduceCtorEq, List.not_mem_nil,
        or_false] at hc
      rcases hc with hc | hc | hc | hc
      · exact absurd hc.1 (by decide)
      · rw [hc.2.2.2.2.2.2]; decide
      · rw [hc.2.2.2.2.2.2]; decide
      · exact absurd hc.1 (by decide)
    · exact absurd (show py! "tag: v2.0" ∈ _ by decide) (hc.1 (py! "v2.0"))

/-- **C76** if there is no such tag: `0+unknown`, but the commit is reported. -/
theorem C76_archive_unknown {env : Env} {refs : List Str} {full day time zone : Str} (hrefs : ∀ r ∈ refs, IsRef r)
    (hne : refs ≠ []) (hday : IsWord day) (htime : IsWord time) (hzone : IsWord zone) (hfull : IsHash full)
    (hkw : env.keywords = ⟨some (decoration refs), some full, some (gitDate day time zone)⟩)
    (hnone : ∀ name ver, candidate refs name → ¬ releaseName name ver) :
    getVersions env = .ok ⟨py! "0+unknown", some full, some false, some (py! "no suitable tags"), none⟩ := by
  have hp : pickTag tagPrefix (sortedSet (tagsOf refs)) = none := by
    refine pickTag_none fun name hn ver hv => ?_
    exact hnone name ver ((mem_tagsOf hv).1 (mem_sortedSet.1 hn)) hv
  unfold getVersions
  rw [hkw, keywords_archive hne hrefs hday htime hzone hfull, hp]

example : @getVersions Ex.ascii (Ex.machine ⟨some (decoration [py! "HEAD -> main", py! "tag: nightly"]),
      some (py! "0a1b2c3d4e5f0a1b"), some (gitDate (py! "2024-01-02") (py! "03:04:05") (py! "+0100"))⟩ (py! "/x") []) =
    .ok ⟨py! "0+unknown", some (py! "0a1b2c3d4e5f0a1b"), some false, some (py! "no suitable tags"), none⟩ := by
  let _ := Ex.ascii
  refine C76_archive_unknown ?_ (by simp) Ex.word_day Ex.word_time Ex.word_zone Ex.hash16 rfl ?_
  · intro r hr
    simp only [List.mem_cons, List.not_mem_nil, or_false] at hr
    rcases hr with rfl | rfl <;> exact ⟨by simp, by rintro c (h | h) <;> (simp at h; subst h; decide), by decide⟩
  · rintro name ver (hc | hc) hr
    · simp [hr.1] at hc
    · exact absurd (show py! "tag: nightly" ∈ _ by decide) (hc.1 (py! "nightly"))

/-! ## C77: the other styles -/

/-- **C77.**  A clean tree exactly at a release tag has the tag as its version in every documented style (except
`git-describe-long`), on every branch. -/
theorem C77_release_in_every_style {rel long short : Str} {branch date : Option Str} (hrel : rel ≠ []) {style : Str}
    (hs : style ∈ [[], py! "default", py! "pep440", py! "pep440-branch", py! "pep440-pre", py! "pep440-post",
      py! "pep440-post-branch", py! "pep440-old", py! "git-describe"]) :
    render ⟨long, short, none, branch, false, some rel, 0, date⟩ style = .ok ⟨rel, some long, some false, none, date⟩ := by
  have ht : tagOf ⟨long, short, none, branch, false, some rel, 0, date⟩ = some rel := by simp [tagOf, hrel]
  simp only [List.mem_cons, List.not_mem_nil, or_false] at hs
  rcases hs with rfl | rfl | rfl | rfl | rfl | rfl | rfl | rfl | rfl <;>
    simp [render, renderStyle, renderPep440, renderPep440Branch, renderPep440Pre, renderPep440Post,
      renderPep440PostBranch, renderPep440Old, renderGitDescribe, ht, moved, ifDirty]

example : render ⟨py! "0a1b2c3d", py! "0a1b2c3", none, some (py! "feature"), false, some (py! "1.1.2"), 0, none⟩
    (py! "pep440-post-branch") = .ok ⟨py! "1.1.2", some (py! "0a1b2c3d"), some false, none, none⟩ :=
  C77_release_in_every_style (by simp) (by simp)

/-- **C77.**  The style `git-describe-long` gives back what `git describe` printed, without the prefix of the tag. -/
theorem C77_describe_round_trip {run : List Str → Except Exc (Option Str × Option ℤ)} {rel hash full date : Str} {num : ℕ}
    {dirty : Bool} {branch : Option Str} (hrel : rel ≠ []) (hnl : '\n' ∉ rel) (hhash : IsHash hash)
    (hd : commitDate run = .ok date) :
    ∃ p, parseDescribe run tagPrefix (describeTagged ('v' :: rel) num hash dirty) full branch = .ok p ∧
      render p (py! "git-describe-long") = .ok ⟨describeTagged rel num hash dirty, some full, some dirty, none, some date⟩ := by
  refine ⟨_, parse_tagged hnl hhash hd, ?_⟩
  have ht : tagOf ⟨full, hash, none, branch, dirty, some rel, num, some date⟩ = some rel := by simp [tagOf, hrel]
  simp [render, renderStyle, renderGitDescribeLong, ht, describeTagged, ifDirty]

example : ∃ p, parseDescribe (fun _ => .ok (some (py! "2024-01-02 03:04:05 +0100"), some 0)) tagPrefix
      (describeTagged ('v' :: py! "1.1.2") 3 (py! "0a1b2c3") true) (py! "0a1b2c3d4e5f0a1b") none = .ok p ∧
    render p (py! "git-describe-long") = .ok ⟨py! "1.1.2-3-g0a1b2c3-dirty", some (py! "0a1b2c3d4e5f0a1b"), some true, none,
      some (py! "2024-01-02T03:04:05+0100")⟩ :=
  C77_describe_round_trip (rel := py! "1.1.2") (num := 3) (hash := py! "0a1b2c3") (dirty := true) (by simp) (by decide)
    Ex.hash7 (by
      unfold commitDate
      simp only
      rw [show py! "2024-01-02 03:04:05 +0100" = gitDate (py! "2024-01-02") (py! "03:04:05") (py! "+0100") from rfl,
        strip_tight (gitDate_tight Ex.word_day Ex.word_zone), isoDate_gitDate Ex.word_day Ex.word_time Ex.word_zone]
      rfl)

end KK.Version
