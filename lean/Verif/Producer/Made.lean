import Verif.Producer.Lemmas

/-! The produced point, unpacked, and its links. -/
namespace Tycho.Producer

open Tycho.PeerCount Tycho.Verifier

/-- The outcome of `create`, unpacked. -/
structure Made (last : Option LastOwn) (localId r : Nat) (leader : Option Nat) (includes witness : List Info) (now : Nat)
    (conf : Conf) (p : Info) (srcP srcT : Source) (proof trigger : ALink) : Prop where
  round : p.id.round = r
  author : p.id.author = localId
  inc : p.includes = digests includes
  wit : p.witness = digests witness
  ev : p.evidence = ((last.filter (fun l => l.round = r - 1)).map (·.evidence)).getD []
  enough : ∀ l, last.filter (fun l => l.round = r - 1) = some l → l.signers.majorityOfOthers ≤ l.evidence.length
  prev : (byAuthor includes localId).map (·.id.digest) = (last.filter (fun l => l.round = r - 1)).map (·.digest)
  fromP : srcP.From includes witness
  fromT : srcT.From includes witness
  maxT : ∀ q, q ∈ includes ∨ q ∈ witness → q.anchorRound .trigger ≤ srcT.info.anchorRound .trigger
  choice : (srcP = srcT ∧ ∀ q, q ∈ includes ∨ q ∈ witness → q.anchorRound .proof < srcT.info.anchorRound .trigger) ∨
    (srcT.info.anchorRound .trigger ≤ srcP.info.anchorRound .proof ∧
      ∀ q, q ∈ includes ∨ q ∈ witness → q.anchorRound .proof ≤ srcP.info.anchorRound .proof)
  linkP : link r srcP .proof = some proof
  linkT : link r srcT .trigger = some trigger
  role : p.role = chooseRole (last.filter (fun l => l.round = r - 1)) localId r leader proof trigger conf
  time : getTime (p.role.anchorProofLink localId) (byAuthor includes localId) includes witness now =
    some (p.time, p.anchorTime)

theorem create_made {last localId r leader includes witness now digest n b conf p}
    (h : create last localId r leader includes witness now digest n b conf = .ok p) :
    p.payloadBytes = b ∧ ∃ srcP srcT proof trigger,
      Made last localId r leader includes witness now conf p srcP srcT proof trigger := by
  unfold create at h
  dsimp only at h
  split at h
  · simp at h
  rename_i hev
  split at h
  · simp at h
  rename_i proof trigger hl
  split at h
  · rename_i res hres
    subst h
    exfalso
    unfold checkPrev at hres
    split at hres
    · simp at hres
    · split at hres <;> simp at hres
    · simp at hres
    · simp at hres
  rename_i hprev
  split at h
  · simp at h
  rename_i time anchorTime ht
  injection h with h
  unfold anchorLinks at hl
  simp only [Option.bind_eq_bind, Option.bind_eq_some_iff] at hl
  obtain ⟨srcT, hT, srcM, hM, pr, hpr, tr, htr, hpair⟩ := hl
  simp only [Option.pure_def, Option.some.injEq, Prod.mk.injEq] at hpair
  obtain ⟨rfl, rfl⟩ := hpair
  obtain ⟨fT, mT⟩ := linkSource_spec hT
  obtain ⟨fM, mM⟩ := linkSource_spec hM
  refine ⟨by rw [← h], (if srcT.info.anchorRound .trigger > srcM.info.anchorRound .proof then srcT else srcM), srcT, pr, tr, ?_⟩
  constructor
  case round => rw [← h]
  case author => rw [← h]
  case inc => rw [← h]
  case wit => rw [← h]
  case ev => rw [← h]
  case enough =>
    intro l hl
    rw [hl] at hev
    simpa using hev
  case prev =>
    unfold checkPrev at hprev
    split at hprev
    · rename_i h1 h2; rw [h1, h2]
    · rename_i h1 h2
      split at hprev
      · rename_i hab; rw [h1, h2, hab]
      · simp at hprev
    · simp at hprev
    · simp at hprev
  case fromP => split <;> assumption
  case fromT => exact fT
  case maxT => exact mT
  case choice =>
    split
    · rename_i hgt
      refine .inl ⟨rfl, fun q hq => ?_⟩
      have := mM q hq
      omega
    · rename_i hgt
      exact .inr ⟨by omega, mM⟩
  case linkP => exact hpr
  case linkT => exact htr
  case role => rw [← h]
  case time => rw [← h]; exact ht

section
variable {W : World} {last : Option LastOwn} {localId r : Nat} {leader : Option Nat} {includes witness : List Info}
  {now : Nat} {p : Info} {srcP srcT : Source} {proof trigger : ALink}

theorem Ready.depAccepted (h : Ready W last localId r includes witness now) {q : Info} (hq : q ∈ includes ∨ q ∈ witness) :
    AllAccepted W q := by
  rcases hq with hq | hq
  · exact (h.inc q hq).2
  · exact (h.wit q hq).2.2

theorem Source.From.mem {src : Source} (h : src.From includes witness) : src.info ∈ includes ∨ src.info ∈ witness := by
  rcases h with h | h
  · exact .inl h.1
  · exact .inr h.1

/-- The path of a source leads from `p` to the source. -/
theorem from_throughId (hr : Ready W last localId r includes witness now) (h1 : p.id.round = r)
    (h2 : p.includes = digests includes) (h3 : p.witness = digests witness) {src : Source}
    (hs : src.From includes witness) : p.throughId src.path = some src.info.id := by
  rcases hs with ⟨hm, hp⟩ | ⟨hm, hp⟩
  · rw [hp]
    unfold Info.throughId
    simp only
    rw [h2, digests_get hr.incOnce hm]
    simp only [Option.map_some, Option.some.injEq]
    rw [show p.round = r from h1]
    exact (id_eq_mk (hr.inc _ hm).1).symm
  · rw [hp]
    unfold Info.throughId
    simp only
    rw [h3, digests_get hr.witOnce hm]
    simp only [Option.map_some, Option.some.injEq]
    rw [show p.round = r from h1]
    exact (id_eq_mk (hr.wit _ hm).1).symm

/-- What a link made from a source is. -/
theorem link_cases (hr : Ready W last localId r includes witness now) {src : Source}
    (hs : src.From includes witness) {s : Stage} {L : ALink} (h : link r src s = some L) :
    (src.info.anchorLink s = .toSelf ∧ L = .direct src.path ∧ src.info.anchorId s = some src.info.id) ∨
    (src.info.anchorLink s ≠ .toSelf ∧ ∃ dst, src.info.anchorId s = some dst ∧ L = .indirect ⟨dst, src.path⟩) := by
  have hround : src.info.round = (match src.path with | .includes _ => r - 1 | .witness _ => r - 1 - 1) := by
    rcases hs with ⟨hm, hp⟩ | ⟨hm, hp⟩
    · rw [hp]; exact (hr.inc _ hm).1
    · rw [hp]; exact (hr.wit _ hm).1
  have h' : (if src.info.anchorLink s = .toSelf then some (ALink.direct src.path)
      else (src.info.anchorId s).map (fun d => ALink.indirect ⟨d, src.path⟩)) = some L := by
    rw [← h]
    unfold link
    cases hp : src.path <;> rw [hp] at hround <;> simp only at hround <;> simp [hround]
  split at h'
  · rename_i hc
    injection h' with h'
    refine .inl ⟨hc, h'.symm, ?_⟩
    unfold Info.anchorId; rw [hc]
  · rename_i hc
    rw [Option.map_eq_some_iff] at h'
    obtain ⟨dst, h1, h2⟩ := h'
    exact .inr ⟨hc, dst, h1, h2.symm⟩

/-- The properties of a link of `p` made from a source. -/
structure Linked (p : Info) (s : Stage) (src : Source) : Prop where
  anchorId : p.anchorId s = src.info.anchorId s
  isSome : (src.info.anchorId s).isSome
  through : p.anchorLinkThrough s = some src.info.id
  notSelf : p.anchorLink s ≠ .toSelf
  ok : p.linkError s = none
  direct : (p.anchorLink s).indirect? = none → src.info.anchorLink s = .toSelf
  indirect : ∀ l, p.anchorLink s = .indirect l → src.info.anchorLink s ≠ .toSelf ∧ src.info.anchorId s = some l.to ∧
    l.path = src.path

theorem linked (hW : W.Ok) (hr : Ready W last localId r includes witness now) (h1 : p.id.round = r)
    (h2 : p.includes = digests includes) (h3 : p.witness = digests witness) {src : Source}
    (hs : src.From includes witness) {s : Stage} {L : ALink} (hl : link r src s = some L) (hp : p.anchorLink s = L.any) :
    Linked p s src := by
  have hth := from_throughId hr h1 h2 h3 hs
  have hok : ∀ a, src.path = .includes a → p.includes.has a = true := by
    intro a ha
    rcases hs with ⟨hm, hp⟩ | ⟨hm, hp⟩
    · rw [hp] at ha; injection ha with ha; subst ha
      rw [PMap.has_iff_get?, h2, digests_get hr.incOnce hm]; rfl
    · rw [hp] at ha; simp at ha
  have hok' : ∀ a, src.path = .witness a → p.witness.has a = true := by
    intro a ha
    rcases hs with ⟨hm, hp⟩ | ⟨hm, hp⟩
    · rw [hp] at ha; simp at ha
    · rw [hp] at ha; injection ha with ha; subst ha
      rw [PMap.has_iff_get?, h3, digests_get hr.witOnce hm]; rfl
  rcases link_cases hr hs hl with ⟨hself, rfl, hid⟩ | ⟨hns, dst, hid, rfl⟩
  · simp only [ALink.any] at hp
    constructor
    · unfold Info.anchorId at hid ⊢; rw [hp]; simp only; rw [hth]; exact hid.symm
    · rw [hid]; rfl
    · unfold Info.anchorLinkThrough; rw [hp]; exact hth
    · rw [hp]; simp
    · unfold Info.linkError; rw [hp]
      cases hpath : src.path with
      | includes a => simp [hok a hpath]
      | witness a => simp [hok' a hpath]
    · intro _; exact hself
    · intro l hl; rw [hp] at hl; simp at hl
  · simp only [ALink.any] at hp
    have hlt : dst.round < src.info.round := by
      rw [anchorId_round hid]
      exact (depOk hW (hr.depAccepted hs.mem)).lt s hns
    constructor
    · unfold Info.anchorId at hid ⊢; rw [hp]; simp only; exact hid.symm
    · rw [hid]; rfl
    · unfold Info.anchorLinkThrough; rw [hp]; exact hth
    · rw [hp]; simp
    · unfold Info.linkError Info.indirectLinkError; rw [hp]
      have hround : p.round = r := h1
      rcases hs with ⟨hm, hpath⟩ | ⟨hm, hpath⟩
      · simp only [hpath, hok _ hpath]
        have := (hr.inc _ hm).1
        rw [if_neg (by simp; omega)]
      · simp only [hpath, hok' _ hpath]
        have := (hr.wit _ hm).1
        rw [if_neg (by simp; omega)]
    · rw [hp]; simp [AnyLink.indirect?]
    · intro l hl
      rw [hp] at hl
      injection hl with hl
      subst hl
      exact ⟨hns, hid, rfl⟩

end

end Tycho.Producer
