import Verif.Props.PageSafe
import Verif.Spec.TrackAmp

/-! # The volume of the tracks (C77)

`trackAmp(a)` says "The amplitude of each track is set to: a". The engine stores the value and never reads it. -/

namespace Verif.Props.PagePlay
open Verif Verif.PagePlay Spec Verif.Spec.PagePlay

section
variable {L : Lang}

/-- A step of the engine that does not look at the volume. -/
def Blind {α : Type} (f : Engine L → Except Panic (Engine L × α)) : Prop :=
  ∀ e v, f (e.setTrackAmp v) = (f e).map (fun r => (r.1.setTrackAmp v, r.2))

theorem blind_updateAst (τ : TableOrder) (new : Ast L.Comp) : Blind (fun e => Engine.updateAst τ e new) := by
  intro e v
  show Engine.updateAst τ (e.setTrackAmp v) new = (Engine.updateAst τ e new).map _
  unfold Engine.updateAst
  simp only [Engine.setTrackAmp, oldKeys]
  cases diffAll (L.make e.samples e.sr e.bpm e.seed) e.ast new with
  | error s => cases s <;> rfl
  | ok diff =>
    simp only [bind, Except.bind]
    cases dropChains new (match e.ast with | none => [] | some o => o.map Prod.fst) e.index with
    | error p => rfl
    | ok r1 =>
      obtain ⟨t1, gone1⟩ := r1
      simp only
      cases dropNodes diff.removes.reverse t1 with
      | error p => rfl
      | ok r2 =>
        obtain ⟨t2, gone2⟩ := r2
        simp only
        cases insertNodes diff.adds e.graph t2 with
        | error p => rfl
        | ok r3 =>
          obtain ⟨g3, t3, created⟩ := r3
          simp only
          cases refCheck t3 new (diff.refpairs.flatMap (·.1)) with
          | some r => rfl
          | none =>
            simp only
            cases connectPairs (τ.ord t3) diff.refpairs [] (removeAll g3 (gone1 ++ gone2)).clearEdges with
            | error p => rfl
            | ok r4 =>
              obtain ⟨g5, bad⟩ := r4
              cases bad with
              | some x => rfl
              | none =>
                simp only
                cases connectTable e.dest (τ.ord t3) g5 <;> rfl

theorem blind_update (τ : TableOrder) (code : Name) : Blind (L := L) (fun e => Engine.updateWithCode τ e code) := by
  intro e v
  show Engine.updateWithCode τ (e.setTrackAmp v) code = (Engine.updateWithCode τ e code).map _
  unfold Engine.updateWithCode
  simp only [bind, Except.bind]
  cases L.parse code with
  | error p => rfl
  | ok r =>
    cases r with
    | none => rfl
    | some new => exact blind_updateAst τ new e v

theorem amp_copyInput (e : Engine L) (v : L.Num) (ch : Nat) (b : List L.Num) :
    (e.setTrackAmp v).copyInput ch b = (e.copyInput ch b).map (·.setTrackAmp v) := by
  unfold Engine.copyInput
  simp only [Engine.setTrackAmp, bind, Except.bind]
  cases lookup e.index inputName with
  | none => rfl
  | some nodes =>
    simp only
    cases nodes[0]? with
    | none => rfl
    | some i =>
      simp only
      cases e.graph.modify i _ <;> rfl

theorem amp_copyInputs (e : Engine L) (v : L.Num) (buf : List (List L.Num)) :
    (e.setTrackAmp v).copyInputs buf = (e.copyInputs buf).map (·.setTrackAmp v) := by
  unfold Engine.copyInputs
  split
  · rfl
  · exact amp_copyInput ..
  · simp only [bind, Except.bind, amp_copyInput]
    cases e.copyInput 0 _ with
    | error p => rfl
    | ok e1 => exact amp_copyInput ..

theorem blind_nextBlock (ho : HashOrder) (buf : List (List L.Num)) : Blind (L := L) (fun e => e.nextBlock ho buf) := by
  intro e v
  show (e.setTrackAmp v).nextBlock ho buf = (e.nextBlock ho buf).map _
  unfold Engine.nextBlock
  simp only [bind, Except.bind, amp_copyInputs]
  cases e.copyInputs buf with
  | error p => rfl
  | ok e1 =>
    simp only [Except.map, Engine.setTrackAmp]
    cases process L.proc ho e1.graph e1.dest with
    | error p => rfl
    | ok g =>
      simp only
      cases g.node? e1.dest <;> rfl

theorem amp_setBpm (e : Engine L) (v w : L.Num) : (e.setTrackAmp v).setBpm w = (e.setBpm w).map (·.setTrackAmp v) := by
  unfold Engine.setBpm
  simp only [Engine.setTrackAmp, bind, Except.bind]
  cases sendAll (L := L) (.setBPM w) e.graph.slots <;> rfl

theorem amp_command (e : Engine L) (v : L.Num) (cmd : Name) : (e.setTrackAmp v).command cmd = (e.command cmd).map (·.setTrackAmp v) := by
  unfold Engine.command
  cases parseCommand L cmd with
  | none => rfl
  | some x =>
    obtain ⟨chain, pos, m⟩ := x
    simp only [Engine.deliver, Engine.setTrackAmp, bind, Except.bind]
    cases lookup e.index chain with
    | none => rfl
    | some nodes =>
      simp only
      cases nodes[pos]? with
      | none => rfl
      | some i =>
        simp only
        cases sendTo e.graph i m <;> rfl

theorem amp_sendMsg (e : Engine L) (v : L.Num) (msg : Name) : (e.setTrackAmp v).sendMsg msg = (e.sendMsg msg).map (·.setTrackAmp v) := by
  unfold Engine.sendMsg
  simp only
  generalize (splitOn ';' (msg.filter (fun c => !isWhitespace c))).filter (fun c => !c.isEmpty) = cmds
  induction cmds generalizing e with
  | nil => rfl
  | cons c cmds ih =>
    simp only [List.foldlM_cons, bind, Except.bind, amp_command]
    cases e.command c with
    | error p => rfl
    | ok e1 => exact ih e1

theorem gets_amp (ops : List (Op L)) (e : Engine L) (v : L.Num) : gets (e.setTrackAmp v) ops = gets e ops := by
  induction ops generalizing e v with
  | nil => rfl
  | cons op ops ih =>
    cases op with
    | update τ code =>
      simp only [gets]
      rw [show Engine.updateWithCode τ (e.setTrackAmp v) code = _ from blind_update τ code e v]
      beta_reduce
      cases Engine.updateWithCode τ e code with
      | error p => rfl
      | ok r => simp only [Except.map, ih]
    | nextBlock ho buf =>
      simp only [gets]
      rw [show (e.setTrackAmp v).nextBlock ho buf = _ from blind_nextBlock ho buf e v]
      beta_reduce
      cases e.nextBlock ho buf with
      | error p => rfl
      | ok r => simp only [Except.map, ih]
    | sendMsg msg =>
      simp only [gets, Op.apply, amp_sendMsg]
      cases e.sendMsg msg with
      | error p => rfl
      | ok r => exact ih r v
    | setBpm w =>
      simp only [gets, Op.apply, amp_setBpm]
      cases e.setBpm w with
      | error p => rfl
      | ok r => exact ih r v
    | setSr w => exact ih (e.setSr w) v
    | setSeed w => exact ih (e.setSeed w) v
    | setTrackAmp w => rfl
    | addSample n s => exact ih (e.addSample n s) v
    | reset => rfl

/-- **C77 does not hold**: whatever the calls, those that set the volume of the tracks can be left out without any difference in what the
caller gets. -/
theorem c77_track_amp_ignored (e : Engine L) (ops : List (Op L)) : gets e ops = gets e (withoutAmps ops) := by
  induction ops generalizing e with
  | nil => rfl
  | cons op ops ih =>
    cases op with
    | update τ code =>
      simp only [gets, withoutAmps]
      cases Engine.updateWithCode τ e code with
      | error p => rfl
      | ok r => simp only [ih r.1]
    | nextBlock ho buf =>
      simp only [gets, withoutAmps]
      cases e.nextBlock ho buf with
      | error p => rfl
      | ok r => simp only [ih r.1]
    | sendMsg msg =>
      simp only [gets, withoutAmps]
      cases Op.apply e (.sendMsg msg) with
      | error p => rfl
      | ok r => exact ih r
    | setBpm w =>
      simp only [gets, withoutAmps]
      cases Op.apply e (.setBpm w) with
      | error p => rfl
      | ok r => exact ih r
    | setSr w => exact ih (e.setSr w)
    | setSeed w => exact ih (e.setSeed w)
    | setTrackAmp w => exact (gets_amp ops e w).trans (ih e)
    | addSample n s => exact ih (e.addSample n s)
    | reset => exact ih e.reset

/-- **C77** (partial). For the amplitude 1, which scales nothing, the property holds: wherever such a call is inserted, all that follows is as
before. Missing: every other amplitude, for which it is false (`c77_track_amp_counterexample`). -/
theorem c77_amplitude_one_partial (e : Engine L) (ops1 ops2 : List (Op L)) :
    gets e (ops1 ++ .setTrackAmp L.one :: ops2) = gets e (ops1 ++ ops2) := by
  have key : ∀ a b : List (Op L), withoutAmps (a ++ b) = withoutAmps a ++ withoutAmps b := by
    intro a b
    induction a with
    | nil => rfl
    | cons x xs ih => cases x <;> simp only [List.cons_append, withoutAmps, ih]
  rw [c77_track_amp_ignored, c77_track_amp_ignored e (ops1 ++ ops2), key, key]
  rfl

end

/-- **C77 does not hold**, seen from the page: `o: constsig 1` is played, `trackAmp(0.5)` is called and carried out, and what is played is
still 1. -/
theorem c77_track_amp_counterexample (P : Plat) (fe : Name → Option Fl) (parseMsg : Name → List Nat) :
    (runs 44100 parseMsg (start (pageLang P fe)) [.post (.run c!"o: constsig 1"), .take .ident, .post (.amp (.fin (1 / 2))), .take .ident, .quantum .ident]).2 =
      [.asked (.run c!"o: constsig 1"), .did .ident (.run c!"o: constsig 1"), .asked (.amp (.fin (1 / 2))), .did .ident (.amp (.fin (1 / 2))),
        .sound .ident (List.replicate 128 (.fin 1)) (List.replicate 128 (.fin 1))] :=
  runsFuel_spec (by kernel_rfl)

/-- A case of the other theorems: an engine that plays ones in both channels, with and without the calls. -/
example (P : Plat) (fe : Name → Option Fl) :
    gets (Engine.new (pageLang P fe) 128) [.setTrackAmp (.fin (1 / 2)), .update .ident c!"o: constsig 1", .setTrackAmp (.fin 1), .update .ident c!"o"] =
      [.answer none, .answer (some .parsing)] ∧
    withoutAmps (L := pageLang P fe) [.setTrackAmp (.fin (1 / 2)), .update .ident c!"o: constsig 1", .setTrackAmp (.fin 1), .update .ident c!"o"] =
      [.update .ident c!"o: constsig 1", .update .ident c!"o"] :=
  ⟨by kernel_rfl, rfl⟩

end Verif.Props.PagePlay
