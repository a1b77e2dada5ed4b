import Verif.Audio.LogModel
/-!
Windowing and overlap-add of the audio example (examples/audio_network/src/dsp.c 14-71, raised_cosine.h).  The sample-rate
converters and the Fourier transforms belong to other libraries; the converters are parameters, the transforms enter through
the frames that they return.
-/
namespace Verif.Audio

/-- raised_cosine.h 1-514. -/
def raisedCosine : List Int := [
  0, 40425, 161695, 363792, 646685, 1010330, 1454675, 1979651, 2585180, 3271171, 4037519, 4884110, 5810817, 6817499, 7904006, 9070172,
  10315824, 11640773, 13044820, 14527753, 16089348, 17729372, 19447577, 21243703, 23117481, 25068629, 27096852, 29201845, 31383291, 33640862, 35974217, 38383006,
  40866865, 43425420, 46058287, 48765068, 51545356, 54398732, 57324767, 60323019, 63393038, 66534362, 69746516, 73029017, 76381371, 79803073, 83293608, 86852450,
  90479063, 94172901, 97933408, 101760017, 105652152, 109609227, 113630646, 117715804, 121864085, 126074864, 130347508, 134681373, 139075806, 143530145, 148043720, 152615851,
  157245850, 161933018, 166676651, 171476034, 176330443, 181239149, 186201412, 191216484, 196283611, 201402029, 206570967, 211789647, 217057283, 222373082, 227736243, 233145959,
  238601414, 244101788, 249646252, 255233971, 260864103, 266535801, 272248210, 278000471, 283791716, 289621074, 295487667, 301390612, 307329019, 313301994, 319308638, 325348046,
  331419309, 337521511, 343653736, 349815057, 356004549, 362221279, 368464310, 374732703, 381025513, 387341792, 393680591, 400040953, 406421921, 412822535, 419241829, 425678839,
  432132593, 438602120, 445086447, 451584596, 458095588, 464618444, 471152181, 477695815, 484248360, 490808831, 497376238, 503949592, 510527905, 517110185, 523695440, 530282680,
  536870912, 543459144, 550046384, 556631639, 563213919, 569792232, 576365586, 582932993, 589493464, 596046009, 602589643, 609123380, 615646236, 622157228, 628655377, 635139704,
  641609231, 648062985, 654499995, 660919289, 667319903, 673700871, 680061233, 686400032, 692716311, 699009121, 705277514, 711520545, 717737275, 723926767, 730088088, 736220313,
  742322515, 748393778, 754433186, 760439830, 766412805, 772351212, 778254157, 784120750, 789950108, 795741353, 801493614, 807206023, 812877721, 818507853, 824095572, 829640036,
  835140410, 840595865, 846005581, 851368742, 856684541, 861952177, 867170857, 872339795, 877458213, 882525340, 887540412, 892502675, 897411381, 902265790, 907065173, 911808806,
  916495974, 921125973, 925698104, 930211679, 934666018, 939060451, 943394316, 947666960, 951877739, 956026020, 960111178, 964132597, 968089672, 971981807, 975808416, 979568923,
  983262761, 986889374, 990448216, 993938751, 997360453, 1000712807, 1003995308, 1007207462, 1010348786, 1013418805, 1016417057, 1019343092, 1022196468, 1024976756, 1027683537, 1030316404,
  1032874959, 1035358818, 1037767607, 1040100962, 1042358533, 1044539979, 1046644972, 1048673195, 1050624343, 1052498121, 1054294247, 1056012452, 1057652476, 1059214071, 1060697004, 1062101051,
  1063426000, 1064671652, 1065837818, 1066924325, 1067931007, 1068857714, 1069704305, 1070470653, 1071156644, 1071762173, 1072287149, 1072731494, 1073095139, 1073378032, 1073580129, 1073701399,
  1073741824, 1073701399, 1073580129, 1073378032, 1073095139, 1072731494, 1072287149, 1071762173, 1071156644, 1070470653, 1069704305, 1068857714, 1067931007, 1066924325, 1065837818, 1064671652,
  1063426000, 1062101051, 1060697004, 1059214071, 1057652476, 1056012452, 1054294247, 1052498121, 1050624343, 1048673195, 1046644972, 1044539979, 1042358533, 1040100962, 1037767607, 1035358818,
  1032874959, 1030316404, 1027683537, 1024976756, 1022196468, 1019343092, 1016417057, 1013418805, 1010348785, 1007207462, 1003995308, 1000712807, 997360453, 993938751, 990448216, 986889374,
  983262761, 979568923, 975808416, 971981807, 968089672, 964132597, 960111178, 956026020, 951877739, 947666960, 943394316, 939060451, 934666018, 930211679, 925698104, 921125973,
  916495974, 911808806, 907065173, 902265790, 897411381, 892502675, 887540412, 882525340, 877458213, 872339795, 867170857, 861952177, 856684541, 851368742, 846005581, 840595865,
  835140410, 829640036, 824095572, 818507853, 812877721, 807206023, 801493614, 795741353, 789950108, 784120750, 778254157, 772351212, 766412805, 760439830, 754433186, 748393778,
  742322515, 736220313, 730088088, 723926767, 717737275, 711520545, 705277514, 699009121, 692716311, 686400032, 680061233, 673700871, 667319903, 660919289, 654499995, 648062985,
  641609231, 635139704, 628655377, 622157228, 615646236, 609123380, 602589643, 596046009, 589493464, 582932993, 576365586, 569792232, 563213919, 556631639, 550046384, 543459144,
  536870912, 530282680, 523695440, 517110185, 510527905, 503949592, 497376238, 490808831, 484248360, 477695815, 471152181, 464618444, 458095588, 451584596, 445086447, 438602120,
  432132593, 425678839, 419241829, 412822535, 406421921, 400040953, 393680591, 387341792, 381025513, 374732703, 368464310, 362221279, 356004549, 349815057, 343653736, 337521511,
  331419309, 325348046, 319308638, 313301994, 307329019, 301390612, 295487667, 289621074, 283791716, 278000471, 272248210, 266535801, 260864103, 255233971, 249646252, 244101788,
  238601414, 233145959, 227736243, 222373082, 217057283, 211789647, 206570967, 201402029, 196283611, 191216484, 186201412, 181239149, 176330443, 171476034, 166676651, 161933018,
  157245849, 152615851, 148043720, 143530145, 139075806, 134681373, 130347508, 126074864, 121864085, 117715804, 113630646, 109609227, 105652152, 101760017, 97933408, 94172901,
  90479063, 86852450, 83293608, 79803073, 76381371, 73029017, 69746516, 66534362, 63393038, 60323019, 57324767, 54398732, 51545356, 48765068, 46058287, 43425420,
  40866865, 38383006, 35974217, 33640862, 31383291, 29201845, 27096852, 25068629, 23117481, 21243703, 19447577, 17729372, 16089348, 14527753, 13044820, 11640773,
  10315824, 9070172, 7904006, 6817499, 5810817, 4884110, 4037519, 3271171, 2585180, 1979651, 1454675, 1010330, 646685, 363792, 161695, 40425]

/-- dsp.c 21-24: the loop over the new samples, three to one.  `ds` is src_ff3_96t_ds with its state. -/
def downs {S : Type} (ds : S → Int → Int → Int → S × Int) : S → List Int → S × List Int
  | s, a :: b :: c :: rest =>
    let r := ds s a b c
    let q := downs ds r.1 rest
    (q.1, r.2 :: q.2)
  | s, _ => (s, [])

/-- The static variables of dsp_time_to_freq (dsp.c 15-16). -/
structure InSt (S : Type) where
  frame : List Int
  state : S

/-- dsp.c 18-24: drop the oldest `A` samples, append the new ones.  `A` is WINDOW_ADVANCE. -/
def timeStep {S : Type} (ds : S → Int → Int → Int → S × Int) (A : Nat) (st : InSt S) (block : List Int) : InSt S :=
  let q := downs ds st.state block
  ⟨st.frame.drop A ++ q.2, q.1⟩

/-- dsp.c 26-30: the window, with two bits of headroom. -/
def windowed (frame : List Int) : List Int := List.zipWith (fun w x => wrap32 (w / 2 * x / 2 ^ 32)) raisedCosine frame

/-- dsp.c 53-61 and 68: add the frame to the output, hand out its oldest `A` samples and keep the rest.  The last `A` elements are
left behind by the memmove and overwritten the next time. -/
def olaStep (A : Nat) (out fft : List Int) : List Int × List Int :=
  let added := List.zipWith (fun a b => wrap32 (a + b)) (out.take (3 * A)) (fft.take (3 * A)) ++ fft.drop (3 * A)
  (added.take A, added.drop A ++ added.drop (3 * A))

/-- A run over many frames: what is handed out, one list for every frame. -/
def olaRun (A : Nat) : List Int → List (List Int) → List (List Int)
  | _, [] => []
  | out, f :: fs => let r := olaStep A out f; r.1 :: olaRun A r.2 fs

/-- A run over many blocks: the frame after every block. -/
def timeRun {S : Type} (ds : S → Int → Int → Int → S × Int) (A : Nat) : InSt S → List (List Int) → List (List Int)
  | _, [] => []
  | st, b :: bs => let st' := timeStep ds A st b; st'.frame :: timeRun ds A st' bs

end Verif.Audio
