import Verif.Nodes.Voices
import Verif.Spec.Signal

/-! # Voices of synthesizers -/

namespace Verif.Spec

/-- A node that processes blocks, with messages before each of them. -/
def performBlocks {P : Plat} : GNode P → List Buf → List (List (Msg Fl) × Ins) → Except Panic (List (List Buf))
  | _, _, [] => .ok []
  | n, out, b :: bs =>
    match sendMsgs n b.1 with
    | .error e => .error e
    | .ok n1 =>
      match procG P n1 b.2 out with
      | .error e => .error e
      | .ok (n2, out2) =>
        match performBlocks n2 out2 bs with
        | .error e => .error e
        | .ok r => .ok (out2 :: r)

/-- Component `c` processes blocks, with messages before each of them. -/
def perform (P : Plat) (N : Nat) (env : Env) (c : Comp) (bs : List (List (Msg Fl) × Ins)) : Except Stop (List (List Buf)) :=
  match makeNode P N env.samples env.sr env.bpm env.seed c with
  | .error e => .error e
  | .ok (d, _) =>
    match performBlocks d.node d.buffers bs with
    | .error e => .error (.panic e)
    | .ok r => .ok r

/-- A sawtooth phase after `i` samples: it starts at 0, grows by `inc`, and drops by 1 above 1. -/
def rampAt (inc : Fl) : Nat → Fl
  | 0 => .fin 0
  | i + 1 => if Fl.lt (.fin 1) (rampAt inc i +. inc) then rampAt inc i +. inc -. .fin 1 else rampAt inc i +. inc

/-- The frequency of a MIDI note. -/
def noteFreq (m : Libm) (midi : Fl) : Fl := m.powf (.fin 2) ((midi -. .fin 69) /. .fin 12) *. .fin 440

/-- The notes that sound at time `t`, with their times of start, if the notes `starts u` start at `u` and sound for `dur`
samples more. -/
def sounding (starts : Nat → List Fl) (dur t : Nat) : List (Nat × Fl) :=
  (List.range (t + 1)).flatMap (fun u => if t ≤ u + dur then (starts u).map (fun f => (u, f)) else [])

/-- What a single voice of frequency `f` adds `i` samples after its start: a sawtooth. -/
def voiceAt (amp : Nat → Fl) (sr : Nat) (f : Fl) (i : Nat) : Fl :=
  amp i *. (rampAt (f /. Fl.ofNat f32 sr) i *. .fin 2 -. .fin 1) *. Fl.lit f32 (1 / 10)

/-- The sum of the voices, from the oldest on. -/
def voicesAt (amp : Nat → Fl) (sr : Nat) (l : List (Nat × Fl)) (t : Nat) : Fl :=
  l.foldl (fun o v => o +. voiceAt amp sr v.2 (t - v.1)) (.fin 0)

/-- `m` asks for the note `e.2` at sample `e.1`: a text `seconds=>note`. -/
def NoteMsg (sr : Nat) (m : Msg Fl) (e : Nat × Fl) : Prop :=
  ∃ (text a b : Name) (x : Fl), m = .setToSymbol 3 text ∧ text.filter (fun c => !isWhite c) = a ++ '=' :: '>' :: b ∧
    '=' ∉ a ∧ '=' ∉ b ∧ parseF32 a = some x ∧ parseF32 b = some e.2 ∧ e.1 = (x *. Fl.ofNat f32 sr).toUsize

/-- The notes that start at time `u`, if the notes `evs[k]` are asked for before block `k`. -/
def noteStarts (m : Libm) (N : Nat) (evs : List (List (Nat × Fl))) (u : Nat) : List Fl :=
  ((evs.take (u / N + 1)).flatten.filter (fun e => decide (e.1 = u))).map (fun e => noteFreq m e.2)

end Verif.Spec
