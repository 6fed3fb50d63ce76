import Verif.BitStream.Props
import Verif.Lfsr.Props
import Verif.Lfsr.PropsPeriod
import Verif.Telecom.Props
import Verif.Temps.Props
import Verif.Temps.PropsGPS
import Verif.Temps.Texte
import Verif.Temps.Duree
import Verif.Filtre.Props
import Verif.Filtre.PropsBlocs
import Verif.Filtre.EnPlace
import Verif.Tampon.Props
import Verif.Util.Props
import Verif.Reechan.Props
import Verif.Reechan.PropsUps
import Verif.Reechan.PropsCic
import Verif.Filtre.PropsChaine
import Verif.Fourier.HadamardProps
import Verif.Fourier.Props

import Verif.Fourier.CorrProps
import Verif.Fourier.Estim
import Verif.Fourier.GoertzelProps
import Verif.Fourier.FreqProps
import Verif.Fourier.Delais
import Verif.Fourier.DelaisProps
import Verif.Fourier.Spectre
import Verif.Fourier.SpectreProps
import Verif.Fourier.ReechFreq
import Verif.Fourier.ReechFreqProps
import Verif.Divers.Model
import Verif.Divers.Props
import Verif.Fourier.RfftProps
import Verif.Fourier.OlaProps
import Verif.Poly.Props
import Verif.Poly.FiltreRii
import Verif.Geometrie.Model
import Verif.Geometrie.Props
import Verif.Stats.Model
import Verif.Stats.Props
import Verif.Itrp.Model
import Verif.Itrp.Props
import Verif.Itrp.Interp
import Verif.Itrp.Flux
import Verif.Wav.Model
import Verif.Wav.Lemmas
import Verif.Wav.Props
import Verif.Tableau.Dim
import Verif.Tableau.Model
import Verif.Tableau.Lemmas
import Verif.Tableau.Props
import Verif.Tableau.LigneExt
import Verif.Tableau.LigneExtProps
import Verif.Tableau.Arith
import Verif.Tableau.Forme
import Verif.Tableau.Types
import Verif.Tableau.Concat
import Verif.Signaux.Model
import Verif.Signaux.Props
import Verif.Conception.Fenetres
import Verif.Conception.FenetresProps
import Verif.Conception.ChebProps
import Verif.Conception.Rif
import Verif.Conception.RifProps
import Verif.Conception.TransfProps
import Verif.Conception.DiffProps
import Verif.Conception.HilbertProps
import Verif.Conception.RifFreqProps
import Verif.Conception.Ordre1Props
import Verif.Conception.GaussProps
import Verif.Conception.Rii
import Verif.Conception.RiiProps
import Verif.Conception.ButterProps
import Verif.Conception.TchebProps
import Verif.Conception.Tcheb2Props
import Verif.Conception.Biquad
import Verif.Conception.BiquadProps
import Verif.Telecom.Formes
import Verif.Telecom.FormesProps
import Verif.Telecom.Pi4Props
import Verif.Telecom.ModProps
import Verif.Telecom.FskProps
import Verif.Telecom.Emetteur
import Verif.Telecom.EmetteurProps
import Verif.Telecom.Porteuse
import Verif.Telecom.PorteuseProps
import Verif.Telecom.PicProps
import Verif.Telecom.Egalisation
import Verif.Telecom.EgalisationProps
import Verif.Telecom.ZfeProps
import Verif.Telecom.Horloge
import Verif.Telecom.HorlogeProps
import Verif.Telecom.Snr
import Verif.Telecom.SnrProps
import Verif.Conception.HilbertGain
import Verif.Telecom.Analogique
import Verif.Telecom.DemodGen
import Verif.Telecom.DiscriProps
import Verif.Telecom.AmProps
import Verif.Telecom.AmDemProps
import Verif.Fourier.AligneProps
import Verif.Telecom.CmpBits
import Verif.Telecom.CmpBitsProps
import Verif.Fourier.Detecteur
import Verif.Fourier.DetecteurProps
import Verif.Fourier.DetecteurReel
import Verif.Fourier.DetecteurEv
import Verif.Fourier.DetecteurOla
import Verif.Fourier.OlaCorr
import Verif.Fourier.DetecteurOlaProps
import Verif.Fourier.DetecteurAuto
import Verif.Kalman.Model
import Verif.Kalman.Props
import Verif.Kalman.Moindres
import Verif.Kalman.Ekf
import Verif.Kalman.Riccati
import Verif.Kalman.EkfProps
import Verif.Kalman.Simu
import Verif.Kalman.SimuProps
import Verif.Telecom.Canal
import Verif.Telecom.CanalProps
import Verif.Telecom.EtalementProps
import Verif.Fourier.Tod
import Verif.Fourier.TodProps
import Verif.Fourier.OndelettesProps
import Verif.Fourier.PolyphaseProps
import Verif.Conception.AmplitudeProps
import Verif.Conception.EquiProps
import Verif.Conception.DemiBandeProps
import Verif.Conception.AnalyseProps
import Verif.Conception.GroupeProps
import Verif.Conception.FiltreAnalyseProps
import Verif.Conception.AnalyseRefute
import Verif.Conception.Elliptique
import Verif.Filtre.SoisFinal
import Verif.Filtre.SoisRefute
import Verif.Telecom.DemodDecReset
import Verif.Telecom.DemodDecRefut
import Verif.Telecom.DemodDecFin
import Verif.Telecom.DemodDecCag
import Verif.Telecom.DemodDecRythme
import Verif.Telecom.DemodDecForme
import Verif.Telecom.Recepteur
import Verif.Telecom.RecepteurBase
import Verif.Telecom.RecepteurSuivi
import Verif.Telecom.RecepteurProps
import Verif.Telecom.RecepteurDecoupe
import Verif.Telecom.RecepteurTheo
import Verif.Telecom.RecepteurErreurs
import Verif.Telecom.RecepteurExemples
import Verif.Telecom.RecepteurBits
import Verif.Itrp.Sinc
import Verif.Telecom.Ber
import Verif.Telecom.BerBase
import Verif.Telecom.BerProps
import Verif.Telecom.BerAsk
import Verif.Telecom.BerQam
import Verif.Telecom.BerPsk
import Verif.Telecom.BerQpsk
import Verif.Telecom.BerFin
import Verif.Telecom.Generation
import Verif.Stats.SousEspace
import Verif.Stats.SousEspaceProps
import Verif.Stats.SousEspaceFin
import Verif.Divers.Ct
import Verif.Vue.Unites
import Verif.Vue.Image
import Verif.Vue.ImageProps
import Verif.Vue.Couleur
import Verif.Vue.Figures
import Verif.Vue.FigureRegion
import Verif.Vue.FigurePlot
import Verif.Vue.FigureCourbes
import Verif.Vue.FigureImage
import Verif.Vue.Ellipse
import Verif.Vue.ImageFichier
import Verif.Vue.Accu
import Verif.Vue.ImageElt
import Verif.Vue.Texte
import Verif.Vue.Legende
import Verif.Vue.Bande
import Verif.Vue.Cadre
import Verif.Vue.Etiquette
import Verif.Telecom.AnalyseForme
import Verif.Vue.Dessin
import Verif.Vue.DessinAa
import Verif.Vue.Canva
import Verif.Vue.Cercle
import Verif.Vue.CercleProps
import Verif.Vue.Melange
import Verif.Vue.MelangeProps
import Verif.Vue.Polygone
import Verif.Vue.Redim
import Verif.Vue.Axes
import Verif.Vue.AxesTics
import Verif.Vue.AxesVue
import Verif.Telecom.CanalDisp
import Verif.Telecom.Rpll
import Verif.BitStream.Alea
import Verif.Vue.Cmap
import Verif.Vue.Rect
import Verif.Fourier.AligneDyn
import Verif.Reechan.CicFreq
import Verif.Telecom.Horloge2
import Verif.Kalman.Imu
import Verif.Telecom.FmDemod
import Verif.Fourier.Cqt
import Verif.Fourier.CqtItrp
import Verif.Fourier.DelaisFrac
import Verif.Fourier.DelaisReel
import Verif.Reechan.CicComp
import Verif.Telecom.DemodDecOsf3
import Verif.Dsp.Memoire
import Verif.Dsp.DemodConfig
import Verif.Dsp.Copies
import Verif.Dsp.Appels
import Verif.Dsp.References
import Verif.Conception.Slepian
import Verif.Util.Grilles
import Verif.Geometrie.Axes3d
import Verif.Reechan.Arbitraire
import Verif.Util.Moniteur
import Verif.Fourier.OlaFenetre
import Verif.Fourier.OlaFenetreFlux
import Verif.Fourier.OlaFenetreProps
import Verif.Fourier.OlaFenetreC
