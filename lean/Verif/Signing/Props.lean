import Verif.Signing.Restart

/-! What a node signs, over all orders of arrival, requests, crashes and restarts. -/
namespace Tycho.Signing

/-- Every version that went past the first cell left it set. -/
def Res (s : Sys) : Prop := ∀ t ∈ s.tasks, t.phase ≠ .fresh → s.loc.resolved ≠ none

/-- A version in storage that is the first valid one in memory is marked so in storage. -/
def Flags (s : Sys) : Prop := ∀ t ∈ s.tasks, inDb t.phase = true → t.firstValid = true →
  ∃ r ∈ s.db, r.digest = t.digest ∧ r.firstValid = true

/-- Every signature is of the first valid version, and it is in storage as valid. -/
def Sigs (s : Sys) : Prop := ∀ x ∈ s.signed, s.loc.valid = some x.1 ∧ ∃ r ∈ s.db, r.digest = x.1 ∧ r.isValid = true

def isRestart : Op → Bool
  | .restart _ _ => true
  | _ => false

/-- Specification: a restart finds either no valid version in storage or one of them marked as the first valid. -/
def Clean (fix : Bool) (db : List Rec) : Prop :=
  (∃ r ∈ afterFix fix db, r.isValid = true) → ∃ r ∈ afterFix fix db, r.firstValid = true

theorem acquire1_resolved {l t l' t'} (h : acquire1 l t = some (l', t')) :
    l'.resolved ≠ none ∧ t'.digest = t.digest ∧ t'.phase = .half := by
  unfold acquire1 at h
  split at h
  · rename_i hr; simp at h; obtain ⟨rfl, rfl⟩ := h; simp [hr]
  · split at h
    · split at h
      · simp at h; obtain ⟨rfl, rfl⟩ := h; simp
      · split at h <;> simp at h
        obtain ⟨rfl, rfl⟩ := h; simp
    · simp at h; obtain ⟨rfl, rfl⟩ := h; simp

theorem acquire2_resolved (l t) : (acquire2 l t).1.resolved = l.resolved ∧ (acquire2 l t).2.digest = t.digest ∧
    (acquire2 l t).2.phase = .acquired := by
  unfold acquire2
  split
  · split <;> simp
  · simp

theorem resolveFirst_resolved {l t l'} (h : resolveFirst l t = some l') (hn : l.resolved ≠ none) : l'.resolved ≠ none := by
  unfold resolveFirst at h
  repeat' split at h
  all_goals simp at h
  all_goals subst h
  all_goals first | exact hn | simp_all

theorem resolve_resolved {l t l' t'} (h : resolve l t = some (l', t')) (hn : l.resolved ≠ none) : l'.resolved ≠ none := by
  unfold resolve at h
  split at h
  · simp at h
  · rename_i l'' hl
    split at h <;> simp at h
    obtain ⟨rfl, _⟩ := h
    exact resolveFirst_resolved hl hn

theorem sign_resolved {round l a} (hn : l.resolved ≠ none) : (sign round l a).2.resolved ≠ none := by
  unfold sign
  split <;> simp_all

theorem getOrReject_resolved {l} : (getOrReject l).2.resolved ≠ none := by
  unfold getOrReject
  split <;> simp_all
  split <;> simp_all

theorem newSig_mem {round : Nat} {l : Loc} {a : Ask} {x : Nat × Nat} (h : x ∈ newSig round l a) :
    ∃ d g, l.resolved = some (.valid d (some (some g))) ∧ x = (g.digest, a.at_) ∧ g.sig = none ∧
      decideSig round g a = some true := by
  unfold newSig at h
  split at h
  · rename_i d g hr
    split at h
    · rename_i hc
      simp at h
      exact ⟨d, g, hr, h, hc.1, hc.2⟩
    · simp at h
  · simp at h

/-- What every step keeps. -/
theorem step_ok {round : Nat} {s : Sys} (I : Inv s) (hres : Res s) (op : Op) :
    ∃ s', step round s op = some s' ∧ Inv s' ∧ Res s' ∧
      (isRestart op = false → (Flags s → Flags s') ∧ (Sigs s → Sigs s')) := by
  have set_flags : ∀ {t' : Task} {l : Loc}, (inDb t'.phase = false) → Flags s →
      Flags { s with loc := l, tasks := setTask s.tasks t' } := by
    intro t' l hp hF x hx h1 h2
    rcases mem_setTask.1 hx with ⟨rfl, -⟩ | ⟨hx, -⟩
    · rw [hp] at h1; simp at h1
    · exact hF x hx h1 h2
  cases op with
  | start d v tm =>
    simp only [step]
    split
    · exact ⟨s, rfl, I, hres, fun _ => ⟨id, id⟩⟩
    · rename_i h
      refine ⟨_, rfl, inv_start I h, ?_, fun _ => ⟨?_, id⟩⟩
      · intro t ht hp
        rcases List.mem_cons.1 ht with rfl | ht
        · exact absurd rfl hp
        · exact hres t ht hp
      · intro hF t ht h1 h2
        rcases List.mem_cons.1 ht with rfl | ht
        · simp at h2
        · exact hF t ht h1 h2
  | acquire1 d =>
    simp only [step]
    cases hf : findTask s.tasks d .fresh with
    | none => exact ⟨s, rfl, I, hres, fun _ => ⟨id, id⟩⟩
    | some t =>
      obtain ⟨ht, -, hp⟩ := findTask_some hf
      obtain ⟨l', t', he, hI, hv⟩ := acquire1_ok I ht hp
      obtain ⟨h1, h2, h3⟩ := acquire1_resolved he
      simp only [he, Option.map_some]
      refine ⟨_, rfl, hI, fun _ _ _ => h1, fun _ => ⟨set_flags (by rw [h3]; rfl), ?_⟩⟩
      intro hS x hx; exact ⟨hv _ (hS x hx).1, (hS x hx).2⟩
  | acquire2 d =>
    simp only [step]
    cases hf : findTask s.tasks d .half with
    | none => exact ⟨s, rfl, I, hres, fun _ => ⟨id, id⟩⟩
    | some t =>
      obtain ⟨ht, -, hp⟩ := findTask_some hf
      have hr := hres t ht (by rw [hp]; simp)
      obtain ⟨hI, hv⟩ := acquire2_ok I ht hp hr
      obtain ⟨h1, h2, h3⟩ := acquire2_resolved s.loc t
      refine ⟨_, rfl, hI, fun _ _ _ => by simp only [h1]; exact hr, fun _ => ⟨set_flags (by rw [h3]; rfl), ?_⟩⟩
      intro hS x hx; exact ⟨hv _ (hS x hx).1, (hS x hx).2⟩
  | store d =>
    simp only [step]
    cases hf : findTask s.tasks d .acquired with
    | none => exact ⟨s, rfl, I, hres, fun _ => ⟨id, id⟩⟩
    | some t =>
      obtain ⟨ht, -, hp⟩ := findTask_some hf
      obtain ⟨hI, hk⟩ := store_ok I ht hp
      refine ⟨_, rfl, hI, fun _ _ _ => hres t ht (by rw [hp]; simp), fun _ => ⟨?_, ?_⟩⟩
      · intro hF x hx h1 h2
        rcases mem_setTask.1 hx with ⟨rfl, -⟩ | ⟨hx, -⟩
        · refine ⟨_, List.mem_cons_self, rfl, ?_⟩
          simp at h2
          simp [h2]
        · obtain ⟨r, hr, h3⟩ := hF x hx h1 h2
          exact ⟨r, hk r hr, h3⟩
      · intro hS x hx
        obtain ⟨h1, r, hr, h2⟩ := hS x hx
        exact ⟨h1, r, hk r hr, h2⟩
  | resolve d =>
    simp only [step]
    cases hf : findTask s.tasks d .stored with
    | none => exact ⟨s, rfl, I, hres, fun _ => ⟨id, id⟩⟩
    | some t =>
      obtain ⟨ht, -, hp⟩ := findTask_some hf
      obtain ⟨l', he, hI, hv⟩ := resolve_ok I ht hp
      have hr := resolve_resolved he (hres t ht (by rw [hp]; simp))
      simp only [he, Option.map_some]
      refine ⟨_, rfl, hI, fun _ _ _ => hr, fun _ => ⟨?_, ?_⟩⟩
      · intro hF x hx h1 h2
        rcases mem_setTask.1 hx with ⟨rfl, -⟩ | ⟨hx, -⟩
        · exact hF t ht (by rw [hp]; rfl) h2
        · exact hF x hx h1 h2
      · intro hS x hx; exact ⟨by simp only [hv]; exact (hS x hx).1, (hS x hx).2⟩
  | sign a =>
    obtain ⟨hI, hv⟩ := sign_ok I round a (newSig round s.loc a ++ s.signed)
    refine ⟨_, rfl, hI, fun t ht hp => sign_resolved (hres t ht hp), fun _ => ⟨id, ?_⟩⟩
    intro hS x hx
    have hx' : x ∈ newSig round s.loc a ++ s.signed := hx
    rcases List.mem_append.1 hx' with hx | hx
    · obtain ⟨d, g, hr, rfl, -, -⟩ := newSig_mem hx
      obtain ⟨h1, h2⟩ := I.sg d g hr
      refine ⟨?_, ?_⟩
      · simp only [hv]; rw [h1]; exact I.v1 d _ hr
      · simp only [h1]; exact h2
    · exact ⟨by simp only [hv]; exact (hS x hx).1, (hS x hx).2⟩
  | reject =>
    obtain ⟨hI, hv⟩ := reject_ok I
    refine ⟨_, rfl, hI, fun _ _ _ => getOrReject_resolved, fun _ => ⟨id, ?_⟩⟩
    intro hS x hx; exact ⟨by simp only [hv]; exact (hS x hx).1, (hS x hx).2⟩
  | restart fix order =>
    simp only [step]
    split
    · rename_i hc
      have hp : order.Perm (afterFix fix s.db) := List.isPerm_iff.1 hc.1
      obtain ⟨l, ts, hr, R, hI⟩ := inv_restart I hp hc.2
      rw [hr]
      refine ⟨_, rfl, hI, ?_, fun h => by simp [isRestart] at h⟩
      intro t ht _
      have h1 := R.loc
      have h2 := (R.mem t).1 ht
      cases order with
      | nil => simp at h2
      | cons r rs =>
        simp only at h1
        show l.resolved ≠ none
        subst h1
        unfold headLoc; split <;> simp
    · exact ⟨s, rfl, I, hres, fun h => by simp [isRestart] at h⟩

/-- A restart keeps the record of the signed version first, if it was marked. -/
theorem restart_sigs {round : Nat} {s s' : Sys} (I : Inv s) (hF : Flags s) (hS : Sigs s) {fix order}
    (h : step round s (.restart fix order) = some s') : Sigs s' := by
  simp only [step] at h
  split at h
  · rename_i hc
    have hp : order.Perm (afterFix fix s.db) := List.isPerm_iff.1 hc.1
    obtain ⟨l, ts, hr, R, hI⟩ := inv_restart I hp hc.2
    rw [hr] at h
    simp at h
    subst h
    intro x hx
    obtain ⟨hv, r, hrm, hrd, hrv⟩ := hS x hx
    obtain ⟨t, ht, htd⟩ := I.dbTask r hrm
    have hph : inDb t.phase = true := by
      cases hc : inDb t.phase with
      | true => rfl
      | false => exact absurd htd.symm (I.norec t ht hc r hrm)
    obtain ⟨f, hf, hfd, hff⟩ := hF t ht hph ((I.fv t ht).2 (by rw [htd, hrd]; exact hv))
    have hfm := mem_afterFix_flagged (fix := fix) hf (I.flag f hf hff).2 hff
    have hfv := hI.flag f hfm hff
    refine ⟨?_, f, hfm, ?_, hfv.2⟩
    · rw [hfv.1, hfd, htd, hrd]
    · rw [hfd, htd, hrd]
  · simp at h; subst h; exact hS

/-- A clean restart keeps the marks. -/
theorem restart_flags {round : Nat} {s s' : Sys} (I : Inv s) (hF : Flags s) {fix order} (hc : Clean fix s.db)
    (h : step round s (.restart fix order) = some s') : Flags s' := by
  simp only [step] at h
  split at h
  · rename_i hcond
    have hp : order.Perm (afterFix fix s.db) := List.isPerm_iff.1 hcond.1
    obtain ⟨l, ts, hr, R, hI⟩ := inv_restart I hp hcond.2
    rw [hr] at h
    simp at h
    subst h
    intro t ht _ hfv
    have h2 := (R.mem t).1 ht
    cases order with
    | nil => simp at h2
    | cons r rs =>
      simp only at h2
      rcases h2 with rfl | ⟨x, _, rfl⟩
      · have hrm : r ∈ afterFix fix s.db := hp.mem_iff.1 (by simp)
        obtain ⟨f, hf, hff⟩ := hc ⟨r, hrm, hfv⟩
        exact ⟨r, hrm, rfl, flagged_first hcond.2 (hp.mem_iff.2 hf) hff⟩
      · simp [plain] at hfv
  · simp at h; subst h; exact hF

/-- Specification: every restart of the run is clean. -/
def CleanRun (round : Nat) (s : Sys) : List Op → Prop
  | [] => True
  | op :: ops => (∀ fix order, op = .restart fix order → Clean fix s.db) ∧
      ∀ s', step round s op = some s' → CleanRun round s' ops

theorem run_ok {round : Nat} (ops : List Op) {s : Sys} (I : Inv s) (hres : Res s) :
    ∃ s', run round s ops = some s' ∧ Inv s' ∧ Res s' := by
  induction ops generalizing s with
  | nil => exact ⟨s, rfl, I, hres⟩
  | cons op ops ih =>
    obtain ⟨s', h, I', h', -⟩ := step_ok (round := round) I hres op
    unfold run
    rw [h]
    exact ih I' h'

theorem res_new : Res Sys.new := by intro t ht; simp [Sys.new] at ht

/-- C20: no order of arrivals, requests, crashes and restarts makes a node panic here. -/
theorem never_panics (round : Nat) (ops : List Op) : run round .new ops ≠ none := by
  obtain ⟨s', h, -⟩ := run_ok (round := round) ops inv_new res_new
  rw [h]; simp

theorem run_clean {round : Nat} (ops : List Op) {s s' : Sys} (I : Inv s) (hres : Res s) (hF : Flags s) (hS : Sigs s)
    (hc : CleanRun round s ops) (h : run round s ops = some s') : Inv s' ∧ Res s' ∧ Flags s' ∧ Sigs s' := by
  induction ops generalizing s with
  | nil => simp [run] at h; subst h; exact ⟨I, hres, hF, hS⟩
  | cons op ops ih =>
    obtain ⟨s1, h1, I1, hr1, hk⟩ := step_ok (round := round) I hres op
    unfold run at h
    rw [h1] at h
    have hFS : Flags s1 ∧ Sigs s1 := by
      cases hop : isRestart op with
      | false => exact ⟨(hk hop).1 hF, (hk hop).2 hS⟩
      | true =>
        cases op with
        | restart fix order => exact ⟨restart_flags I hF (hc.1 fix order rfl) h1, restart_sigs I hF hS h1⟩
        | _ => simp [isRestart] at hop
    exact ih I1 hr1 hFS.1 hFS.2 (hc.2 s1 h1) h

theorem run_append {round : Nat} (a b : List Op) (s : Sys) : run round s (a ++ b) = (run round s a).bind fun x => run round x b := by
  induction a generalizing s with
  | nil => rfl
  | cons op ops ih =>
    simp only [List.cons_append, run]
    cases step round s op with
    | none => rfl
    | some s' => exact ih s'

theorem run_sigs_of_no_restart {round : Nat} (ops : List Op) {s s' : Sys} (I : Inv s) (hres : Res s) (hS : Sigs s)
    (hn : ∀ op ∈ ops, isRestart op = false) (h : run round s ops = some s') : Sigs s' := by
  induction ops generalizing s with
  | nil => simp [run] at h; subst h; exact hS
  | cons op ops ih =>
    obtain ⟨s1, h1, I1, hr1, hk⟩ := step_ok (round := round) I hres op
    unfold run at h
    rw [h1] at h
    exact ih I1 hr1 ((hk (hn op (by simp))).2 hS) (fun o ho => hn o (by simp [ho])) h

theorem sigs_same {s : Sys} (hS : Sigs s) : ∀ x ∈ s.signed, ∀ y ∈ s.signed, x.1 = y.1 := by
  intro x hx y hy
  have h1 := (hS x hx).1
  have h2 := (hS y hy).1
  rw [h1] at h2
  simpa using h2

/-- C20: over any run in which all restarts but the last are clean (the last one is arbitrary), all signatures the node ever
made for this author and round are of one version. -/
theorem signs_one_version (round : Nat) (ops ops' : List Op) (fix : Bool) (order : List Rec) (s : Sys)
    (hc : CleanRun round .new ops) (hn : ∀ op ∈ ops', isRestart op = false)
    (h : run round .new (ops ++ .restart fix order :: ops') = some s) :
    ∀ x ∈ s.signed, ∀ y ∈ s.signed, x.1 = y.1 := by
  rw [run_append] at h
  obtain ⟨s0, h0, I0, hr0⟩ := run_ok (round := round) ops inv_new res_new
  obtain ⟨-, -, hF, hS⟩ := run_clean ops inv_new res_new (by intro t ht; simp [Sys.new] at ht)
    (by intro t ht; simp [Sys.new] at ht) hc h0
  rw [h0] at h
  obtain ⟨s1, h1, I1, hr1, -⟩ := step_ok (round := round) I0 hr0 (.restart fix order)
  simp only [Option.bind_some, run] at h
  rw [h1] at h
  exact sigs_same (run_sigs_of_no_restart ops' I1 hr1 (restart_sigs I0 hF hS h1) hn h)

/-- C20: in a run in which all restarts are clean, all signatures are of one version. -/
theorem signs_one_version_clean (round : Nat) (ops : List Op) (s : Sys) (hc : CleanRun round .new ops)
    (h : run round .new ops = some s) : ∀ x ∈ s.signed, ∀ y ∈ s.signed, x.1 = y.1 :=
  sigs_same (run_clean ops inv_new res_new (by intro t ht; simp [Sys.new] at ht)
    (by intro t ht; simp [Sys.new] at ht) hc h).2.2.2

theorem cleanRun_of_no_restart {round : Nat} (ops : List Op) (s : Sys) (hn : ∀ op ∈ ops, isRestart op = false) :
    CleanRun round s ops := by
  induction ops generalizing s with
  | nil => trivial
  | cons op ops ih =>
    refine ⟨?_, fun s' _ => ih s' fun o ho => hn o (by simp [ho])⟩
    rintro fix order rfl
    simpa [isRestart] using hn _ (List.mem_cons_self ..)

/-- C20: with one restart at any moment, from any admissible order of the stored records, all signatures are of one version. -/
theorem signs_one_version_one_restart (round : Nat) (ops ops' : List Op) (fix : Bool) (order : List Rec) (s : Sys)
    (h1 : ∀ op ∈ ops, isRestart op = false) (h2 : ∀ op ∈ ops', isRestart op = false)
    (h : run round .new (ops ++ .restart fix order :: ops') = some s) :
    ∀ x ∈ s.signed, ∀ y ∈ s.signed, x.1 = y.1 :=
  signs_one_version round ops ops' fix order s (cleanRun_of_no_restart ops _ h1) h2 h

/-- A restart that resets the statuses other than first valid ones is clean. -/
theorem clean_fix (db : List Rec) : Clean true db := by
  rintro ⟨r, hr, -⟩
  refine ⟨r, hr, ?_⟩
  unfold afterFix at hr
  simp at hr
  exact hr.2.2

theorem cleanRun_of_fix {round : Nat} (ops : List Op) (s : Sys) (hn : ∀ fix order, .restart fix order ∈ ops → fix = true) :
    CleanRun round s ops := by
  induction ops generalizing s with
  | nil => trivial
  | cons op ops ih =>
    refine ⟨?_, fun s' _ => ih s' fun f o ho => hn f o (by simp [ho])⟩
    rintro fix order rfl
    rw [hn fix order (by simp)]
    exact clean_fix _

/-- C20: any number of restarts, if each one resets unmarked statuses. -/
theorem signs_one_version_fix (round : Nat) (ops : List Op) (s : Sys)
    (hn : ∀ fix order, .restart fix order ∈ ops → fix = true) (h : run round .new ops = some s) :
    ∀ x ∈ s.signed, ∀ y ∈ s.signed, x.1 = y.1 :=
  signs_one_version_clean round ops s (cleanRun_of_fix ops _ hn) h

/-! ### The window and what is signed -/

theorem decideSig_window {round : Nat} {g : Signable} {a : Ask} (hn : g.sig = none) (h : decideSig round g a = some true) :
    round ≤ a.at_ ∧ a.at_ ≤ round + 1 ∧ a.key = true ∧ g.time < a.now + a.skew := by
  unfold decideSig at h
  rw [hn] at h
  simp only at h
  split at h
  · rename_i hk
    split at h
    · simp at h
    · split at h
      · simp at h
      · simp at h
        exact ⟨by omega, by omega, hk, by omega⟩
  · split at h <;> simp at h

theorem newSig_window {round : Nat} {l : Loc} {a : Ask} {x : Nat × Nat} (h : x ∈ newSig round l a) :
    round ≤ x.2 ∧ x.2 ≤ round + 1 := by
  obtain ⟨d, g, hr, rfl, hn, hd⟩ := newSig_mem h
  obtain ⟨h1, h2, -⟩ := decideSig_window hn hd
  exact ⟨h1, h2⟩

theorem step_signed {round : Nat} {s s' : Sys} {op : Op} (h : step round s op = some s') :
    s'.signed = s.signed ∨ ∃ a, op = .sign a ∧ s'.signed = newSig round s.loc a ++ s.signed := by
  cases op <;> simp only [step] at h
  case start => split at h <;> simp at h <;> subst h <;> exact Or.inl rfl
  case acquire1 =>
    split at h
    · simp at h; subst h; exact Or.inl rfl
    · simp only [Option.map_eq_some_iff] at h; obtain ⟨_, _, rfl⟩ := h; exact Or.inl rfl
  case acquire2 => split at h <;> simp at h <;> subst h <;> exact Or.inl rfl
  case store => split at h <;> simp at h <;> subst h <;> exact Or.inl rfl
  case resolve =>
    split at h
    · simp at h; subst h; exact Or.inl rfl
    · simp only [Option.map_eq_some_iff] at h; obtain ⟨_, _, rfl⟩ := h; exact Or.inl rfl
  case sign a => simp at h; subst h; exact Or.inr ⟨a, rfl, rfl⟩
  case reject => simp at h; subst h; exact Or.inl rfl
  case restart =>
    split at h
    · simp only [Option.map_eq_some_iff] at h; obtain ⟨_, _, rfl⟩ := h; exact Or.inl rfl
    · simp at h; subst h; exact Or.inl rfl

/-- C20: in every run, with any restarts, a signature is made only while the node is at the round of the point or at the next
one. -/
theorem signs_in_window (round : Nat) (ops : List Op) (s s' : Sys) (h : run round s ops = some s')
    (h0 : ∀ x ∈ s.signed, round ≤ x.2 ∧ x.2 ≤ round + 1) : ∀ x ∈ s'.signed, round ≤ x.2 ∧ x.2 ≤ round + 1 := by
  induction ops generalizing s with
  | nil => simp [run] at h; subst h; exact h0
  | cons op ops ih =>
    unfold run at h
    split at h
    · simp at h
    · rename_i s1 h1
      refine ih s1 h ?_
      rcases step_signed h1 with e | ⟨a, -, e⟩
      · rw [e]; exact h0
      · rw [e]
        intro x hx
        rcases List.mem_append.1 hx with hx | hx
        · exact newSig_window hx
        · exact h0 x hx

/-- C20: in every run, a new signature is of a version that is in storage with a valid status. -/
theorem signs_stored_valid (round : Nat) (ops : List Op) (s : Sys) (h : run round .new ops = some s) (a : Ask) :
    ∀ x ∈ newSig round s.loc a, ∃ r ∈ s.db, r.digest = x.1 ∧ r.isValid = true := by
  obtain ⟨s', h', I, -⟩ := run_ok (round := round) ops inv_new res_new
  rw [h] at h'
  obtain rfl := Option.some.inj h'
  intro x hx
  obtain ⟨d, g, hr, rfl, -, -⟩ := newSig_mem hx
  obtain ⟨h1, h2⟩ := I.sg d g hr
  rw [← h1] at h2
  exact h2

/-! ### Answers do not change within one life -/

/-- Specification: whatever is asked, the answer is `b`. -/
def Decided (round : Nat) (l : Loc) (b : Bool) : Prop := ∀ a, (sign round l a).1 = some b

theorem decided_iff {round : Nat} {l : Loc} {b : Bool} : Decided round l b ↔
    (∃ d g, l.resolved = some (.valid d (some (some g))) ∧ g.sig = some b) ∨
    (b = false ∧ ((∃ d, l.resolved = some (.notValid d)) ∨ l.resolved = some .closed ∨
      ∃ d, l.resolved = some (.valid d (some none)))) := by
  constructor
  · intro h
    have h0 := h ⟨0, false, 0, 0⟩
    unfold sign at h0
    split at h0
    · simp at h0
    · rename_i d hr; simp at h0; exact Or.inr ⟨h0, Or.inl ⟨d, hr⟩⟩
    · rename_i hr; simp at h0; exact Or.inr ⟨h0, Or.inr (Or.inl hr)⟩
    · simp at h0
    · rename_i d hr; simp at h0; exact Or.inr ⟨h0, Or.inr (Or.inr ⟨d, hr⟩)⟩
    · rename_i d g hr
      refine Or.inl ⟨d, g, hr, ?_⟩
      cases hs : g.sig with
      | some r => simp [decideSig, hs] at h0; rw [h0]
      | none => simp [decideSig, hs] at h0
  · rintro (⟨d, g, hr, hs⟩ | ⟨rfl, ⟨d, hr⟩ | hr | ⟨d, hr⟩⟩) a
    · unfold sign; rw [hr]; simp [decideSig, hs]
    · unfold sign; rw [hr]
    · unfold sign; rw [hr]
    · unfold sign; rw [hr]

theorem decided_of_resolved {round : Nat} {l l' : Loc} {b} (h : l'.resolved = l.resolved) (hd : Decided round l b) :
    Decided round l' b := by
  rw [decided_iff, h, ← decided_iff]; exact hd

theorem sign_decides {round : Nat} {l : Loc} {a : Ask} {b} (h : (sign round l a).1 = some b) :
    Decided round (sign round l a).2 b := by
  unfold sign at h ⊢
  split at h
  · simp at h
  · rename_i d hr; simp at h; exact decided_iff.2 (Or.inr ⟨h, Or.inl ⟨d, hr⟩⟩)
  · rename_i hr; simp at h; exact decided_iff.2 (Or.inr ⟨h, Or.inr (Or.inl hr)⟩)
  · simp at h
  · rename_i d hr; simp at h; exact decided_iff.2 (Or.inr ⟨h, Or.inr (Or.inr ⟨d, hr⟩)⟩)
  · rename_i d g hr
    simp at h
    exact decided_iff.2 (Or.inl ⟨d, _, rfl, h⟩)

theorem decided_sign {round : Nat} {l : Loc} {b} (h : Decided round l b) (a : Ask) :
    Decided round (sign round l a).2 b := sign_decides (h a)

theorem decided_reject {round : Nat} {l : Loc} {b} (h : Decided round l b) : Decided round (getOrReject l).2 b := by
  rcases decided_iff.1 h with ⟨d, g, hr, hs⟩ | ⟨rfl, ⟨d, hr⟩ | hr | ⟨d, hr⟩⟩
  · apply decided_iff.2
    left
    refine ⟨d, g, ?_, hs⟩
    unfold getOrReject; rw [hr]; simp only [hs]; cases b <;> simp [hr]
  · apply decided_of_resolved (l := l) _ h; unfold getOrReject; rw [hr]; simp [hr]
  · apply decided_of_resolved (l := l) _ h; unfold getOrReject; rw [hr]; simp [hr]
  · apply decided_of_resolved (l := l) _ h; unfold getOrReject; rw [hr]; simp [hr]

theorem decided_resolve {round : Nat} {l l' : Loc} {t t'} {b} (h : Decided round l b) (hr : resolve l t = some (l', t')) :
    Decided round l' b := by
  unfold resolve at hr
  split at hr
  · simp at hr
  · rename_i l1 h1
    split at hr <;> simp at hr
    obtain ⟨rfl, _⟩ := hr
    apply decided_of_resolved (l := l) _ h
    have hcell : ∀ d, l.resolved ≠ some (.valid d none) := by
      intro d hd
      rcases decided_iff.1 h with ⟨_, _, hr, _⟩ | ⟨_, ⟨_, hr⟩ | hr | ⟨_, hr⟩⟩ <;> rw [hd] at hr <;> simp at hr
    unfold resolveFirst at h1
    repeat' split at h1
    all_goals simp at h1
    all_goals first
      | (rw [← h1]; done)
      | (exfalso; rename_i d _ _ hd _ _; exact hcell d hd)
      | (subst h1; simp_all)

/-- C20: once a request got a signature or a refusal, every later request of the same life gets the same answer. -/
theorem answer_irreversible (round : Nat) (s s1 s2 : Sys) (a : Ask) (b : Bool) (ops : List Op)
    (h0 : (sign round s.loc a).1 = some b) (h1 : step round s (.sign a) = some s1)
    (hn : ∀ op ∈ ops, isRestart op = false) (h2 : run round s1 ops = some s2) :
    ∀ a', (sign round s2.loc a').1 = some b := by
  have hd : Decided round s1.loc b := by
    have : s1.loc = (sign round s.loc a).2 := by simp [step] at h1; rw [← h1]
    rw [this]; exact sign_decides h0
  clear h0 h1
  induction ops generalizing s1 with
  | nil => simp [run] at h2; subst h2; exact hd
  | cons op ops ih =>
    unfold run at h2
    split at h2
    · simp at h2
    · rename_i s3 h3
      refine ih s3 (fun o ho => hn o (by simp [ho])) h2 ?_
      have hres : s1.loc.resolved ≠ none := by
        rcases decided_iff.1 hd with ⟨_, _, hr, _⟩ | ⟨_, ⟨_, hr⟩ | hr | ⟨_, hr⟩⟩ <;> rw [hr] <;> simp
      cases op with
      | start d v tm => simp only [step] at h3; split at h3 <;> simp at h3 <;> subst h3 <;> exact hd
      | acquire1 d =>
        simp only [step] at h3
        split at h3
        · simp at h3; subst h3; exact hd
        · simp only [Option.map_eq_some_iff] at h3
          obtain ⟨x, hx, rfl⟩ := h3
          unfold acquire1 at hx
          split at hx
          · simp at hx; subst hx; exact hd
          · rename_i hr; exact absurd hr hres
      | acquire2 d =>
        simp only [step] at h3
        split at h3
        · simp at h3; subst h3; exact hd
        · simp at h3; subst h3
          exact decided_of_resolved (acquire2_resolved _ _).1 hd
      | store d => simp only [step] at h3; split at h3 <;> simp at h3 <;> subst h3 <;> exact hd
      | resolve d =>
        simp only [step] at h3
        split at h3
        · simp at h3; subst h3; exact hd
        · simp only [Option.map_eq_some_iff] at h3
          obtain ⟨x, hx, rfl⟩ := h3
          exact decided_resolve (t' := x.2) hd hx
      | sign a => simp [step] at h3; subst h3; exact decided_sign hd a
      | reject => simp [step] at h3; subst h3; exact decided_reject hd
      | restart f o => simpa [isRestart] using hn _ (List.mem_cons_self ..)

/-- C20: after the location is closed for signing, the answer is fixed: a signature only if there was one already. -/
theorem reject_is_final (round : Nat) (l : Loc) :
    ∃ b, Decided round (getOrReject l).2 b ∧ (b = true ↔ (getOrReject l).1 ≠ none) ∧
      (b = true → Decided round l true) := by
  unfold getOrReject
  split
  · exact ⟨false, decided_iff.2 (Or.inr ⟨rfl, Or.inr (Or.inl rfl)⟩), by simp, by simp⟩
  · rename_i d hr; exact ⟨false, decided_iff.2 (Or.inr ⟨rfl, Or.inl ⟨d, hr⟩⟩), by simp, by simp⟩
  · rename_i hr; exact ⟨false, decided_iff.2 (Or.inr ⟨rfl, Or.inr (Or.inl hr)⟩), by simp, by simp⟩
  · rename_i d hr; exact ⟨false, decided_iff.2 (Or.inr ⟨rfl, Or.inr (Or.inr ⟨d, rfl⟩)⟩), by simp, by simp⟩
  · rename_i d hr; exact ⟨false, decided_iff.2 (Or.inr ⟨rfl, Or.inr (Or.inr ⟨d, hr⟩)⟩), by simp, by simp⟩
  · rename_i d g hr
    split
    · exact ⟨false, decided_iff.2 (Or.inl ⟨d, _, rfl, rfl⟩), by simp, by simp⟩
    · rename_i hs; exact ⟨true, decided_iff.2 (Or.inl ⟨d, g, hr, hs⟩), by simp, fun _ => decided_iff.2 (Or.inl ⟨d, g, hr, hs⟩)⟩
    · rename_i hs; exact ⟨false, decided_iff.2 (Or.inl ⟨d, g, hr, hs⟩), by simp, by simp⟩

/-! ### The request handler -/

/-- C20: a signature is sent only for the current round of the node or the one before; with anything else the location is not
asked. -/
theorem respond_window (q : Request) (round : Nat) (l : Loc) (h : (respond q round l).1 = .signature) :
    round ≤ q.current ∧ q.current ≤ round + 1 ∧ (respond q round l).2 = (sign round l (q.ask round)).2 ∧
      (sign round l (q.ask round)).1 = some true := by
  unfold respond at h ⊢
  split
  · rename_i h1
    rw [if_pos h1] at h
    split at h
    · simp at h
    · split at h
      · simp at h
      · unfold respondFromDag at h
        split at h
        · simp at h
        · split at h
          · simp at h
          · rw [if_pos (by omega)] at h
            simp at h
  · rename_i h1
    rw [if_neg h1] at h
    split at h
    · simp at h
    · rename_i h2
      rw [if_neg h2]
      unfold respondFromDag at h ⊢
      split at h
      · simp at h
      · rename_i hk
        rw [if_neg hk]
        split at h
        · simp at h
        · rename_i hv
          rw [if_neg hv]
          split at h
          · simp at h
          · rename_i hc
            rw [if_neg hc]
            cases hsg : sign round l (q.ask round) with
            | mk r l' =>
              rw [hsg] at h
              rcases r with _ | b
              · simp at h
              · cases b
                · simp at h
                · exact ⟨by omega, by omega, rfl, rfl⟩

end Tycho.Signing
